import Verif.Spec.Down
import Verif.Lemmas.XPath
/-
Evaluating at an element that stands alone and in a document (C152).
-/
namespace Amara

variable {F : Type}

section
variable (fo : FloatOps F) {doc sub : Node} {p : Path} (hp : doc.at? p = some sub)
include hp

theorem moved_at (q : Path) : doc.at? (p ++ q) = sub.at? q := by
  rw [Node.at?_append, hp]
  rfl

theorem moved_textOf (x : Item F) (hx : x ≠ .root) : (x.moved p).textOf doc = x.textOf sub := by
  cases x <;> simp only [Item.moved, Item.textOf, moved_at hp]

theorem moved_strOf (x : Item F) : (x.moved p).strOf doc = x.strOf sub := by
  cases x <;> simp only [Item.moved, Item.strOf, Item.textOf, moved_at hp]

omit hp in
theorem moved_isNode (x : Item F) : (x.moved p).isNode = x.isNode := by
  cases x <;> rfl

omit hp in
theorem moved_num (x : Item F) : (x.moved p).num = x.num := by
  cases x <;> rfl

omit hp in
theorem moved_isRoot (x : Item F) : (x.moved p).isRoot = x.isRoot := by
  cases x <;> rfl

theorem moved_isElem (x : Item F) : (x.moved p).isElem doc = x.isElem sub := by
  cases x <;> simp only [Item.moved, Item.isElem, moved_at hp]

theorem moved_truthy (x : Item F) : (x.moved p).truthy fo doc = x.truthy fo sub := by
  unfold Item.truthy
  rw [moved_strOf hp]
  cases x <;> rfl

theorem moved_orElse (x y : Item F) : (x.moved p).orElse fo doc (y.moved p) = (x.orElse fo sub y).moved p := by
  unfold Item.orElse
  rw [moved_truthy fo hp]
  split <;> rfl

theorem moved_strval (x : Item F) : (x.moved p).strval doc = x.strval sub := by
  cases x <;> simp only [Item.moved, Item.strval, moved_at hp]

theorem moved_nameOf (x : Item F) : (x.moved p).nameOf doc = x.nameOf sub := by
  cases x <;> simp only [Item.moved, Item.nameOf, moved_at hp]

theorem moved_toStr (x : Item F) : (x.moved p).toStr fo doc = x.toStr fo sub := by
  have := moved_strval hp x
  cases x <;> simp only [Item.moved, Item.toStr] at * <;> assumption

theorem moved_toStrItem (x : Item F) : (x.moved p).toStrItem fo doc = (x.toStrItem fo sub).moved p := by
  unfold Item.toStrItem
  rw [moved_strOf hp, moved_toStr fo hp]
  split <;> rfl

theorem moved_toBool (x : Item F) : (x.moved p).toBool fo doc = x.toBool fo sub := by
  have := moved_strOf hp x
  cases x <;> simp only [Item.moved, Item.toBool] at * <;> rw [this]

theorem moved_pyEq (x y : Item F) : (x.moved p).pyEq fo doc (y.moved p) = x.pyEq fo sub y := by
  unfold Item.pyEq
  rw [moved_num, moved_num, moved_strOf hp, moved_strOf hp]
  cases x.num <;> cases y.num <;> try rfl
  cases x.strOf sub <;> cases y.strOf sub <;> try rfl
  have hb : ∀ a b : Path, (p ++ a == p ++ b) = (a == b) := by
    intro a b
    rw [Bool.eq_iff_iff]
    simp
  cases x <;> cases y <;> simp [Item.moved, hb]

theorem moved_pyRel (op : Rel) (x y : Item F) : (x.moved p).pyRel fo doc op (y.moved p) = x.pyRel fo sub op y := by
  unfold Item.pyRel
  rw [moved_num, moved_num, moved_strOf hp, moved_strOf hp]

theorem moved_atom (x : Item F) : (x.moved p).atom doc = (x.atom sub).moved p := by
  unfold Item.atom
  rw [moved_isNode, moved_strval hp]
  split <;> rfl

omit hp in
theorem moved_atomic {x : Item F} (h : x.Atomic) : x.moved p = x := by
  cases x <;> first | rfl | exact h.elim

omit hp in
theorem atomic_ne_root {x : Item F} (h : x.Atomic) : x ≠ .root := by
  rintro rfl
  exact h

theorem moved_toNum (x : Item F) : (x.moved p).toNum fo doc = x.toNum fo sub := by
  have := moved_toStr fo hp x
  cases x <;> simp only [Item.moved, Item.toNum] at * <;> rw [this]

theorem moved_compute (t : Test) (x : Item F) : t.compute doc (x.moved p) = (t.compute sub x).map (Item.moved p) := by
  have h1 := moved_strOf hp x
  have h2 := moved_isNode (p := p) x
  cases t with
  | star => rfl
  | node => simp only [Test.compute, h1, h2]; split <;> rfl
  | text => simp only [Test.compute, h1]; split <;> rfl
  | name n =>
    cases x <;> simp only [Item.moved, Test.compute, moved_at hp] <;> try rfl
    split
    · split <;> rfl
    · rfl

theorem moved_visit (t : Test) (cur : Item F) (cs : List (Item F)) :
    visit fo doc t (cur.moved p) (cs.map (Item.moved p)) = (visit fo sub t cur cs).map (Item.moved p) := by
  induction cs with
  | nil => rfl
  | cons c cs ih =>
    simp only [visit, List.map_cons, List.flatMap_cons, List.map_append] at *
    rw [ih, moved_orElse fo hp, moved_compute hp]

theorem moved_children (x : Item F) (hx : x ≠ .root) : (x.moved p).children doc = (x.children sub).map (List.map (Item.moved p)) := by
  cases x <;> simp only [Item.moved, Item.children, moved_at hp] <;> try rfl
  · exact absurd rfl hx
  · split <;> simp [Item.moved]

omit hp in
mutual
  theorem under_moved (p q : Path) : ∀ x : Node, x.under (p ++ q) = (x.under q).map (p ++ ·)
    | .text _ => rfl
    | .elem _ _ cs => by
      simp only [Node.under]
      exact underList_moved p q 0 cs
  theorem underList_moved (p q : Path) (i : Nat) : ∀ cs : List Node,
      Node.underList (p ++ q) i cs = (Node.underList q i cs).map (p ++ ·)
    | [] => rfl
    | x :: r => by
      simp only [Node.underList, List.map_cons, List.map_append]
      rw [List.append_assoc, under_moved p (q ++ [i]) x, underList_moved p q (i + 1) r]
end

theorem moved_below (x : Item F) (hx : x ≠ .root) : (x.moved p).below doc = (x.below sub).map (List.map (Item.moved p)) := by
  cases x <;> simp only [Item.moved, Item.below, moved_at hp] <;> try rfl
  · exact absurd rfl hx
  · split
    · rename_i q _ y _
      simp only [Option.map_some, List.map_map, under_moved p q y]
      rfl
    · rfl

omit hp in
/-- `r'` is `r` moved, and there is no root in it. -/
def Down (p : Path) (r r' : Res F) : Prop := r' = r.moved p ∧ ∀ y ∈ r.items, y ≠ .root

omit hp in
theorem down_const {t : Tail} : Down p (⟨[], t⟩ : Res F) ⟨[], t⟩ := ⟨rfl, fun _ h => by cases h⟩

omit hp in
theorem down_one {y : Item F} (h : y.Atomic) : Down p (.one y) (.one y) := by
  refine ⟨?_, ?_⟩
  · simp only [Res.one, Res.moved, List.map_cons, List.map_nil, moved_atomic h]
  · intro z hz
    simp only [Res.one, List.mem_singleton] at hz
    subst hz
    exact atomic_ne_root h

omit hp in
theorem down_one' {y : Item F} (h : y ≠ .root) : Down p (.one y) (.one (y.moved p)) := by
  refine ⟨rfl, ?_⟩
  intro z hz
  simp only [Res.one, List.mem_singleton] at hz
  subst hz
  exact h

omit hp in
theorem down_append {a a' b b' : Res F} (ha : Down p a a') (hb : Down p b b') : Down p (a.append b) (a'.append b') := by
  obtain ⟨rfl, ha⟩ := ha
  obtain ⟨rfl, hb⟩ := hb
  unfold Res.append
  rcases a with ⟨xs, t⟩
  cases t
  · refine ⟨by simp [Res.moved], ?_⟩
    intro y hy
    rcases List.mem_append.1 hy with h | h
    · exact ha y h
    · exact hb y h
  all_goals exact ⟨rfl, ha⟩

omit hp in
theorem down_bindList {f f' : Item F → Res F} {t : Tail} : ∀ {xs : List (Item F)},
    (∀ x ∈ xs, Down p (f x) (f' (x.moved p))) → Down p (Res.bindList f t xs) (Res.bindList f' t (xs.map (Item.moved p)))
  | [], _ => down_const
  | x :: xs, h => by
    simp only [Res.bindList, List.map_cons]
    exact down_append (h x (List.mem_cons_self ..)) (down_bindList fun y hy => h y (List.mem_cons_of_mem _ hy))

omit hp in
theorem down_bind {a a' : Res F} {f f' : Item F → Res F} (ha : Down p a a')
    (hf : ∀ x, x ≠ .root → Down p (f x) (f' (x.moved p))) : Down p (a.bind f) (a'.bind f') := by
  obtain ⟨rfl, ha⟩ := ha
  exact down_bindList fun x hx => hf x (ha x hx)

omit hp in
theorem down_need {a a' : Res F} {f f' : Item F → Res F} (ha : Down p a a')
    (hf : ∀ x, x ≠ .root → Down p (f x) (f' (x.moved p))) : Down p (a.need f) (a'.need f') := by
  obtain ⟨rfl, ha⟩ := ha
  rcases a with ⟨xs, t⟩
  cases xs with
  | nil => cases t <;> exact down_const
  | cons x xs => exact hf x (ha x (List.mem_cons_self ..))

omit hp in
theorem down_orDefault {a a' : Res F} {d : Item F} (hd : d.Atomic) {f f' : Item F → Res F} (ha : Down p a a')
    (hf : ∀ x, x ≠ .root → Down p (f x) (f' (x.moved p))) : Down p (a.orDefault d f) (a'.orDefault d f') := by
  obtain ⟨rfl, ha⟩ := ha
  rcases a with ⟨xs, t⟩
  cases xs with
  | nil =>
    cases t
    · have := hf d (atomic_ne_root hd)
      rw [moved_atomic hd] at this
      exact this
    all_goals exact down_const
  | cons x xs => exact hf x (ha x (List.mem_cons_self ..))

theorem down_strArg {a a' : Res F} {f f' : Str → Res F} (ha : Down p a a') (hf : ∀ s, Down p (f s) (f' s)) :
    Down p (strArg fo sub a f) (strArg fo doc a' f') := by
  refine down_orDefault (show (Item.bool false : Item F).Atomic from trivial) ha fun x _ => ?_
  rw [moved_toStr fo hp]
  exact hf _

omit hp in
theorem compute_mem {t : Test} {x y : Item F} (h : y ∈ t.compute doc x) : y = x := by
  cases t with
  | star => exact List.mem_singleton.1 h
  | node =>
    simp only [Test.compute] at h
    split at h
    · exact List.mem_singleton.1 h
    · cases h
  | text =>
    simp only [Test.compute] at h
    split at h
    · exact List.mem_singleton.1 h
    · cases h
  | name n =>
    simp only [Test.compute] at h
    split at h
    · split at h
      · split at h
        · exact List.mem_singleton.1 h
        · cases h
      · cases h
    · cases h

omit hp in
theorem visit_noroot {t : Test} {x : Item F} (hx : x ≠ .root) {cs : List (Item F)} (hc : ∀ c ∈ cs, c ≠ .root) :
    ∀ y ∈ visit fo doc t x cs, y ≠ .root := by
  intro y hy
  obtain ⟨c, h1, h2⟩ := List.mem_flatMap.1 hy
  rw [compute_mem h2]
  unfold Item.orElse
  split
  · exact hc c h1
  · exact hx

omit hp in
theorem below_noroot {x : Item F} {ys : List (Item F)} (h : x.below doc = some ys) : ∀ y ∈ ys, y ≠ .root := by
  intro y hy
  cases x <;> simp only [Item.below] at h
  case root =>
    cases h
    rcases List.mem_cons.1 hy with rfl | hy
    · intro h; cases h
    · obtain ⟨q, _, rfl⟩ := List.mem_map.1 hy
      intro h; cases h
  case node =>
    split at h
    · cases h
      obtain ⟨q, _, rfl⟩ := List.mem_map.1 hy
      intro h; cases h
    · cases h
  all_goals cases h

omit hp in
theorem children_noroot {x : Item F} {ys : List (Item F)} (h : x.children doc = some ys) : ∀ y ∈ ys, y ≠ .root := by
  intro y hy
  cases x <;> simp only [Item.children] at h
  case root =>
    cases h
    rw [List.mem_singleton.1 hy]
    intro h; cases h
  case node =>
    split at h
    · cases h
      obtain ⟨q, _, rfl⟩ := List.mem_map.1 hy
      intro h; cases h
    · cases h; cases hy
    · cases h
  all_goals cases h

theorem down_below (t : Test) {x : Item F} (hx : x ≠ .root) :
    Down p (match x.below sub with | none => .fail .attribute | some ys => ⟨visit fo sub t x ys, .done⟩)
      (match (x.moved p).below doc with | none => .fail .attribute | some ys => ⟨visit fo doc t (x.moved p) ys, .done⟩) := by
  rw [moved_below hp x hx]
  cases h : x.below sub with
  | none => exact down_const
  | some ys =>
    refine ⟨?_, visit_noroot fo hx (below_noroot h)⟩
    simp only [Option.map_some, moved_visit fo hp]
    rfl

theorem down_test (t : Test) {x : Item F} (hx : x ≠ .root) : Down p ⟨t.compute sub x, .done⟩ ⟨t.compute doc (x.moved p), .done⟩ := by
  refine ⟨by rw [moved_compute hp]; rfl, fun y hy => ?_⟩
  rw [compute_mem hy]
  exact hx

theorem down_step (n : Nat) {a : Axis} (ha : a.Down) (t : Test) {x : Item F} (hx : x ≠ .root) :
    Down p (stepRes fo sub n a t x) (stepRes fo doc n a t (x.moved p)) := by
  rcases ha with rfl | rfl | rfl | rfl | rfl
  · exact down_test hp t hx
  · simp only [stepRes, moved_children hp x hx]
    cases h : x.children sub with
    | none => exact down_const
    | some cs =>
      have hf : ((cs.map (Item.moved p)).filter fun y => y.isElem doc) = (cs.filter fun y => y.isElem sub).map (Item.moved p) := by
        rw [List.filter_map]
        congr 2
        funext y
        exact moved_isElem hp y
      have hn := children_noroot h
      simp only [Option.map_some]
      split
      · refine ⟨?_, visit_noroot fo hx fun c hc => hn c (List.mem_filter.1 hc).1⟩
        rw [hf, moved_visit fo hp]
        rfl
      · refine ⟨?_, visit_noroot fo hx hn⟩
        rw [moved_visit fo hp]
        rfl
  · cases x <;> simp only [stepRes, Item.moved, moved_at hp] <;> try exact down_const
    split
    · refine ⟨?_, ?_⟩
      · simp [Res.moved, Item.moved]
      · intro y hy
        obtain ⟨q, _, rfl⟩ := List.mem_map.1 hy
        intro h; cases h
    · exact down_const
  · exact down_below fo hp t hx
  · exact down_append (down_test hp t hx) (down_below fo hp t hx)

theorem moved_key (x : Item F) (hx : x ≠ .root) (b : Bool) : (x.moved p).orderKey doc b = (x.orderKey sub b).map (Option.map (p ++ ·)) := by
  cases x <;> simp only [Item.moved, Item.orderKey, moved_at hp] <;> try rfl
  · exact absurd rfl hx
  · split <;> rfl

omit hp in
theorem docLtB_moved (p a b : Path) : docLtB (p ++ a) (p ++ b) = docLtB a b := by
  induction p with
  | nil => rfl
  | cons i p ih => simp [docLtB, ih]

omit hp in
/-- Moving items with their keys. -/
def movedKey (p : Path) (kx : Option Path × Item F) : Option Path × Item F := (kx.1.map (p ++ ·), kx.2.moved p)

omit hp in
theorem insertByKey_moved (k : Option Path) (x : Item F) : ∀ xs : List (Option Path × Item F),
    insertByKey (k.map (p ++ ·)) (x.moved p) (xs.map (movedKey p)) = (insertByKey k x xs).map (movedKey p)
  | [] => rfl
  | (k', y) :: xs => by
    have hk : keyLe (k'.map (p ++ ·)) (k.map (p ++ ·)) = keyLe k' k := by
      cases k <;> cases k' <;> simp [keyLe, docLtB_moved]
    simp only [List.map_cons, movedKey, insertByKey, hk]
    split
    · rw [List.map_cons, ← insertByKey_moved k x xs]
      rfl
    · rfl

omit hp in
theorem sortByKey_moved (xs : List (Option Path × Item F)) :
    sortByKey (xs.map (movedKey p)) = (sortByKey xs).map (movedKey p) := by
  have : ∀ (xs acc : List (Option Path × Item F)),
      (xs.map (movedKey p)).foldl (fun acc kx => insertByKey kx.1 kx.2 acc) (acc.map (movedKey p)) =
        (xs.foldl (fun acc kx => insertByKey kx.1 kx.2 acc) acc).map (movedKey p) := by
    intro xs
    induction xs with
    | nil => intro _; rfl
    | cons x xs ih =>
      intro acc
      simp only [List.map_cons, List.foldl_cons]
      rw [← ih, ← insertByKey_moved]
      rfl
  exact this xs []

theorem moved_keys (b : Bool) : ∀ xs : List (Item F), (∀ y ∈ xs, y ≠ .root) →
    ((xs.map (Item.moved p)).mapM fun y : Item F => (y.orderKey doc b).map fun k => (k, y)) =
      (xs.mapM fun y : Item F => (y.orderKey sub b).map fun k => (k, y)).map (List.map (movedKey p))
  | [], _ => rfl
  | x :: xs, h => by
    rw [List.map_cons, List.mapM_cons, List.mapM_cons, moved_keys b xs (fun y hy => h y (List.mem_cons_of_mem _ hy)),
      moved_key hp x (h x (List.mem_cons_self ..))]
    cases x.orderKey sub b with
    | none => rfl
    | some k =>
      cases xs.mapM fun y : Item F => (y.orderKey sub b).map fun k => (k, y) <;> rfl

omit hp in
theorem keys_items {b : Bool} : ∀ {xs : List (Item F)} {ks : List (Option Path × Item F)},
    (xs.mapM fun y => (y.orderKey doc b).map fun k => (k, y)) = some ks → ks.map (·.2) = xs := by
  intro xs
  induction xs with
  | nil => intro ks h; cases h; rfl
  | cons x xs ih =>
    intro ks h
    rw [List.mapM_cons] at h
    cases hk : x.orderKey doc b with
    | none => rw [hk] at h; cases h
    | some k =>
      rw [hk] at h
      cases hr : xs.mapM fun y => (y.orderKey doc b).map fun k => (k, y) with
      | none => rw [hr] at h; cases h
      | some ks' =>
        rw [hr] at h
        cases h
        rw [List.map_cons, ih hr]

omit hp in
theorem insertByKey_mem {k : Option Path} {x : Item F} {y : Option Path × Item F} : ∀ {xs : List (Option Path × Item F)},
    y ∈ insertByKey k x xs → y = (k, x) ∨ y ∈ xs
  | [], h => .inl (List.mem_singleton.1 h)
  | (k', z) :: xs, h => by
    simp only [insertByKey] at h
    split at h
    · rcases List.mem_cons.1 h with h | h
      · exact .inr (h ▸ List.mem_cons_self ..)
      · rcases insertByKey_mem h with h | h
        · exact .inl h
        · exact .inr (List.mem_cons_of_mem _ h)
    · rcases List.mem_cons.1 h with h | h
      · exact .inl h
      · exact .inr h

omit hp in
theorem sortByKey_mem {y : Option Path × Item F} {xs : List (Option Path × Item F)} (h : y ∈ sortByKey xs) : y ∈ xs := by
  have : ∀ (xs acc : List (Option Path × Item F)), y ∈ xs.foldl (fun acc kx => insertByKey kx.1 kx.2 acc) acc → y ∈ acc ∨ y ∈ xs := by
    intro xs
    induction xs with
    | nil => exact fun _ h => .inl h
    | cons x xs ih =>
      intro acc h
      rcases ih _ h with h | h
      · rcases insertByKey_mem h with h | h
        · exact .inr (h ▸ List.mem_cons_self ..)
        · exact .inl h
      · exact .inr (List.mem_cons_of_mem _ h)
  rcases this xs [] h with h | h
  · cases h
  · exact h

theorem down_union {x : Item F} {l l' r r' : Res F} (hl : Down p l l') (hr : Down p r r') :
    Down p (unionRes sub x l r) (unionRes doc (x.moved p) l' r') := by
  obtain ⟨rfl, hl⟩ := hl
  obtain ⟨rfl, hr⟩ := hr
  simp only [unionRes, moved_isNode, moved_isRoot, Res.moved]
  split
  · cases l.tail <;> cases r.tail <;> try exact down_const
    have hn : ∀ y ∈ l.items ++ r.items, y ≠ .root := by
      intro y hy
      rcases List.mem_append.1 hy with h | h
      · exact hl y h
      · exact hr y h
    simp only []
    rw [← List.map_append, moved_keys hp x.isRoot _ hn]
    cases hk : (l.items ++ r.items).mapM fun y : Item F => (y.orderKey sub x.isRoot).map fun k => (k, y) with
    | none => exact down_const
    | some ks =>
      refine ⟨?_, ?_⟩
      · simp only [Option.map_some, sortByKey_moved, Res.moved, List.map_map]
        rfl
      · intro y hy
        obtain ⟨kx, h1, rfl⟩ := List.mem_map.1 hy
        refine hn _ ?_
        rw [← keys_items hk]
        exact List.mem_map.2 ⟨kx, sortByKey_mem h1, rfl⟩
  · exact down_const

theorem moved_eqLoop (i : Item F) (t : Tail) : ∀ xs : List (Item F),
    eqLoop fo doc (i.moved p) t (xs.map (Item.moved p)) = eqLoop fo sub i t xs
  | [] => rfl
  | x :: xs => by
    simp only [List.map_cons, eqLoop, moved_isNode, moved_pyEq fo hp, moved_eqLoop i t xs]

theorem down_eq {l l' r r' : Res F} (hl : Down p l l') (hr : Down p r r') : Down p (eqRes fo sub l r) (eqRes fo doc l' r') := by
  obtain ⟨rfl, hl⟩ := hl
  obtain ⟨rfl, hr⟩ := hr
  rcases l with ⟨xs, t⟩
  cases xs with
  | nil =>
    simp only [eqRes, Res.moved, List.map_nil]
    split
    · exact down_one (show (Item.bool false : Item F).Atomic from trivial)
    · exact down_const
  | cons x xs =>
    simp only [eqRes, Res.moved, List.map_cons, moved_atom hp, moved_eqLoop fo hp]
    split
    · exact down_one (show (Item.bool true : Item F).Atomic from trivial)
    · split
      · exact down_one (show (Item.bool false : Item F).Atomic from trivial)
      · exact down_const
    · exact down_const

theorem down_pred (pos : Nat) {r r' : Res F} (h : Down p r r') : predHolds fo doc pos r' = predHolds fo sub pos r := by
  obtain ⟨rfl, h⟩ := h
  rcases r with ⟨xs, t⟩
  cases xs with
  | nil => cases t <;> rfl
  | cons x xs =>
    simp only [predHolds, Res.moved, List.map_cons, Res.first]
    have := moved_toBool fo hp x
    cases x <;> simp only [Item.moved] at * <;> rw [this]

omit hp in
theorem down_predLoop {f f' : Nat → Item F → Bool ⊕ Tail} {t : Tail} (hf : ∀ pos x, x ≠ .root → f' pos (x.moved p) = f pos x) :
    ∀ {xs : List (Item F)} (pos : Nat), (∀ x ∈ xs, x ≠ .root) →
    Down p (predLoop f t pos xs) (predLoop f' t pos (xs.map (Item.moved p)))
  | [], _, _ => down_const
  | x :: xs, pos, h => by
    have ih := down_predLoop hf (pos + 1) (fun y hy => h y (List.mem_cons_of_mem _ hy)) (t := t)
    have hx := h x (List.mem_cons_self ..)
    simp only [List.map_cons, predLoop, hf pos x hx]
    cases f pos x with
    | inr t => exact down_const
    | inl b =>
      cases b with
      | false => exact ih
      | true =>
        refine ⟨?_, ?_⟩
        · simp only [if_true]
          rw [ih.1]
          rfl
        · intro y hy
          simp only [if_true] at hy
          rcases List.mem_cons.1 hy with rfl | hy
          · exact hx
          · exact ih.2 y hy

omit hp in
inductive DownAll (p : Path) : List (Res F) → List (Res F) → Prop
  | nil : DownAll p [] []
  | cons {r r' rs rs'} : Down p r r' → DownAll p rs rs' → DownAll p (r :: rs) (r' :: rs')

theorem down_intArg {e : Expr F} (he : ∀ y, e = .lit y → y.Atomic) {f f' : Int → Res F} (hf : ∀ i, Down p (f i) (f' i)) :
    Down p (intArg fo sub e f) (intArg fo doc e f') := by
  unfold intArg
  cases e with
  | lit x =>
    have hx := he x rfl
    have h : x.toNum fo doc = x.toNum fo sub := by
      have := moved_toNum fo hp x
      rwa [moved_atomic hx] at this
    simp only [h]
    have hd : Down p (x.toNum fo sub) (x.toNum fo sub) := by
      cases x <;> simp only [Item.toNum] <;> try exact down_one (by trivial)
      all_goals (split <;> first | exact down_one (by trivial) | exact down_const)
    refine down_need hd fun v _ => ?_
    cases v <;> simp only [Item.moved] <;> try exact down_const
    · exact hf _
    · split
      · exact hf _
      · exact down_const
    · exact hf _
  | _ => exact down_const

theorem down_str2 {f f' : Str → Str → Res F} (hf : ∀ s t, Down p (f s t) (f' s t)) {rs rs' : List (Res F)} (h : DownAll p rs rs') :
    Down p (fnStr2 fo sub f rs) (fnStr2 fo doc f' rs') := by
  unfold fnStr2
  cases h with
  | nil => exact down_const
  | cons h1 h =>
    cases h with
    | nil => exact down_const
    | cons h2 h =>
      cases h with
      | nil => exact down_strArg fo hp h1 fun s => down_strArg fo hp h2 fun t => hf s t
      | cons _ _ => exact down_const

omit hp in
theorem downAll_append {rs rs' : List (Res F)} (h : DownAll p rs rs') :
    Down p (rs.foldr Res.append Res.nil) (rs'.foldr Res.append Res.nil) := by
  induction h with
  | nil => exact down_const
  | cons h _ ih => exact down_append h ih

omit hp in
theorem downAll_length {rs rs' : List (Res F)} (h : DownAll p rs rs') : rs'.length = rs.length := by
  induction h with
  | nil => rfl
  | cons _ _ ih => simp only [List.length_cons, ih]

omit hp in
/-- A function of at most one argument. -/
theorem down_args {g g' : List (Res F) → Res F} (h0 : Down p (g []) (g' [])) (h1 : ∀ a a', Down p a a' → Down p (g [a]) (g' [a']))
    (h2 : ∀ a b l a' b' l', Down p (g (a :: b :: l)) (g' (a' :: b' :: l'))) {rs rs' : List (Res F)} (h : DownAll p rs rs') :
    Down p (g rs) (g' rs') := by
  cases h with
  | nil => exact h0
  | cons ha h =>
    cases h with
    | nil => exact h1 _ _ ha
    | cons _ _ => exact h2 _ _ _ _ _ _

theorem down_toNum (x : Item F) : Down p (x.toNum fo sub) ((x.moved p).toNum fo doc) := by
  rw [moved_toNum fo hp]
  cases x <;> simp only [Item.toNum] <;> try exact down_one (by trivial)
  all_goals (split <;> first | exact down_one (by trivial) | exact down_const)

theorem down_call {dyn dyn' : Str → Except XErr (Item F → Res F)} {x : Item F} (hx : x ≠ .root) {m : Str} (hm : m ≠ "for-each".toList)
    {es : List (Expr F)} (hes : ∀ y, .lit y ∈ es → y.Atomic) {rs rs' : List (Res F)} (h : DownAll p rs rs') :
    Down p (callFn fo sub dyn x m es rs) (callFn fo doc dyn' (x.moved p) m es rs') := by
  have hf : ∀ {er : XErr}, Down p (Res.fail er : Res F) (.fail er) := down_const
  have hb : ∀ b : Bool, Down p (Res.one (.bool b) : Res F) (.one (.bool b)) := fun b => down_one (by trivial)
  have hs : ∀ s : Str, Down p (Res.one (.str s) : Res F) (.one (.str s)) := fun b => down_one (by trivial)
  have hi : ∀ i : Int, Down p (Res.one (.int i) : Res F) (.one (.int i)) := fun b => down_one (by trivial)
  have hconst : ∀ {r r' : Res F}, Down p r r' → Down p (fnConst r rs) (fnConst r' rs') := by
    intro r r' hr
    unfold fnConst
    cases h with
    | nil => exact hr
    | cons _ _ => exact hf
  have hstr : ∀ s : Str, (Item.str s : Item F).Atomic := fun _ => trivial
  have hpart : ∀ s t : Str, ∀ c : Str, Down p (if t = [] then Res.fail .value else .one (.str c) : Res F)
      (if t = [] then .fail .value else .one (.str c)) := by
    intro s t c
    split
    · exact hf
    · exact hs _
  unfold callFn
  by_cases hc0 : m = "name".toList
  · rw [if_pos hc0, if_pos hc0]
    refine down_args ?_ (fun a a' ha => down_orDefault (hstr _) ha fun y _ => ?_) (fun _ _ _ _ _ _ => hf) h
    · simp only [fnName]; rw [moved_nameOf hp]; exact hs _
    · rw [moved_nameOf hp]; exact hs _
  rw [if_neg hc0, if_neg hc0]
  by_cases hc1 : m = "last".toList
  · rw [if_pos hc1, if_pos hc1]
    exact hconst (hi _)
  rw [if_neg hc1, if_neg hc1]
  by_cases hc2 : m = "count".toList
  · rw [if_pos hc2, if_pos hc2]
    unfold fnCount
    cases h with
    | nil => exact hf
    | cons h1 h =>
      cases h with
      | nil =>
        obtain ⟨rfl, h1⟩ := h1
        simp only [Res.moved, List.length_map]
        split
        · exact hi _
        · exact down_const
      | cons _ _ => exact hf
  rw [if_neg hc2, if_neg hc2]
  by_cases hc3 : m = "string".toList
  · rw [if_pos hc3, if_pos hc3]
    have ht : ∀ y : Item F, y ≠ .root → Down p (.one (y.toStrItem fo sub)) (.one ((y.moved p).toStrItem fo doc)) := by
      intro y hy
      rw [moved_toStrItem fo hp]
      refine down_one' ?_
      unfold Item.toStrItem
      split
      · exact hy
      · intro h; cases h
    exact down_args (ht x hx) (fun a a' ha => down_orDefault (hstr _) ha ht) (fun _ _ _ _ _ _ => hf) h
  rw [if_neg hc3, if_neg hc3]
  by_cases hc4 : m = "concat".toList
  · rw [if_pos hc4, if_pos hc4]
    have ha := downAll_append h
    unfold concatRes
    obtain ⟨h1, h2⟩ := ha
    rw [h1]
    simp only [Res.moved]
    split
    · have : (((rs.foldr Res.append Res.nil).items.map (Item.moved p)).flatMap fun x => x.toStr fo doc) =
          (rs.foldr Res.append Res.nil).items.flatMap fun x => x.toStr fo sub := by
        rw [List.flatMap_map]
        congr 1
        funext y
        exact moved_toStr fo hp y
      rw [this]
      exact hs _
    · exact down_const
  rw [if_neg hc4, if_neg hc4]
  by_cases hc5 : m = "starts-with".toList
  · rw [if_pos hc5, if_pos hc5]
    exact down_str2 fo hp (fun s t => hb _) h
  rw [if_neg hc5, if_neg hc5]
  by_cases hc6 : m = "contains".toList
  · rw [if_pos hc6, if_pos hc6]
    exact down_str2 fo hp (fun s t => hb _) h
  rw [if_neg hc6, if_neg hc6]
  by_cases hc7 : m = "substring-before".toList
  · rw [if_pos hc7, if_pos hc7]
    exact down_str2 fo hp (fun s t => hpart s t _) h
  rw [if_neg hc7, if_neg hc7]
  by_cases hc8 : m = "substring-after".toList
  · rw [if_pos hc8, if_pos hc8]
    exact down_str2 fo hp (fun s t => hpart s t _) h
  rw [if_neg hc8, if_neg hc8]
  by_cases hc9 : m = "substring".toList
  · rw [if_pos hc9, if_pos hc9]
    unfold fnSubstring
    split
    · cases h with
      | nil => exact hf
      | cons h1 _ =>
        refine down_strArg fo hp h1 fun s => down_intArg fo hp ?_ fun i => down_intArg fo hp ?_ fun k => hs _
        · rintro y rfl; exact hes y (by simp)
        · rintro y rfl; exact hes y (by simp)
    · exact hf
  rw [if_neg hc9, if_neg hc9]
  by_cases hc10 : m = "string-length".toList
  · rw [if_pos hc10, if_pos hc10]
    refine down_args hf (fun a a' ha => down_orDefault (hstr _) ha fun y _ => ?_) (fun _ _ _ _ _ _ => hf) h
    rw [moved_strOf hp]
    split
    · exact hi _
    · exact hf
  rw [if_neg hc10, if_neg hc10]
  by_cases hc11 : m = "boolean".toList
  · rw [if_pos hc11, if_pos hc11]
    refine down_args hf (fun a a' ha => down_orDefault (hstr _) ha fun y _ => ?_) (fun _ _ _ _ _ _ => hf) h
    rw [moved_toBool fo hp]; exact hb _
  rw [if_neg hc11, if_neg hc11]
  by_cases hc12 : m = "not".toList
  · rw [if_pos hc12, if_pos hc12]
    refine down_args hf (fun a a' ha => down_orDefault (show (Item.bool false : Item F).Atomic from trivial) ha fun y _ => ?_)
      (fun _ _ _ _ _ _ => hf) h
    rw [moved_toBool fo hp]; exact hb _
  rw [if_neg hc12, if_neg hc12]
  by_cases hc13 : m = "true".toList
  · rw [if_pos hc13, if_pos hc13]
    exact hconst (hb _)
  rw [if_neg hc13, if_neg hc13]
  by_cases hc14 : m = "false".toList
  · rw [if_pos hc14, if_pos hc14]
    exact hconst (hb _)
  rw [if_neg hc14, if_neg hc14]
  by_cases hc15 : m = "number".toList
  · rw [if_pos hc15, if_pos hc15]
    exact down_args (hi _) (fun a a' ha => down_orDefault (hstr _) ha fun y _ => down_toNum fo hp y) (fun _ _ _ _ _ _ => hf) h
  rw [if_neg hc15, if_neg hc15]
  by_cases hc16 : m = "for-each".toList
  · rw [if_pos hc16, if_pos hc16]
    contradiction
  rw [if_neg hc16, if_neg hc16]
  by_cases hc17 : m = "lookup".toList
  · rw [if_pos hc17, if_pos hc17]
    exact down_str2 fo hp (fun s t => hf) h
  rw [if_neg hc17, if_neg hc17]
  by_cases hc18 : m = "normalize-space".toList ∨ m = "sum".toList ∨ m = "floor".toList ∨ m = "ceiling".toList ∨ m = "round".toList
  · rw [if_pos hc18, if_pos hc18]
    unfold fnTodo
    rw [downAll_length h]
    split <;> exact hf
  rw [if_neg hc18, if_neg hc18]
  by_cases hc19 : m = "translate".toList ∨ m = "same-lang".toList
  · rw [if_pos hc19, if_pos hc19]
    unfold fnTodo
    rw [downAll_length h]
    split <;> exact hf
  rw [if_neg hc19, if_neg hc19]
  exact hf

end

section
variable (E : Env F) {sub : Node} {p : Path} (hp : E.doc.at? p = some sub)
include hp

theorem down_eval (n : Nat) {dyn dyn' : Str → Except XErr (Item F → Res F)}
    (herr : ∀ s er, E.parse s = .error er → dyn s = .error er ∧ dyn' s = .error er)
    (hok : ∀ s g, E.parse s = .ok g → E.LooksDown g → ∃ h h', dyn s = .ok h ∧ dyn' s = .ok h' ∧
      ∀ x : Item F, x ≠ .root → Down p (h x) (h' (x.moved p)))
    {e : Expr F} (he : E.LooksDown e) : ∀ x : Item F, x ≠ .root →
    Down p (eval E.fo sub E.vars n dyn e x) (eval E.fo E.doc E.vars n dyn' e (x.moved p)) := by
  have horElse : ∀ {x y : Item F}, x ≠ .root → y ≠ .root → x.orElse E.fo sub y ≠ .root := by
    intro x y hx hy
    unfold Item.orElse
    split
    · exact hx
    · exact hy
  induction he with
  | lit h => intro x hx; simp only [eval]; exact down_one h
  | var h =>
    intro x hx
    simp only [eval]
    split
    · rename_i y hy; exact down_one (h y hy)
    · exact down_const
  | dot => intro x hx; simp only [eval]; exact down_one' hx
  | test => intro x hx; simp only [eval]; exact down_test hp _ hx
  | step ha => intro x hx; simp only [eval]; exact down_step E.fo hp n ha _ hx
  | slash _ _ ihl ihr =>
    intro x hx
    simp only [eval]
    refine down_bind (ihl x hx) fun y hy => ?_
    rw [moved_orElse E.fo hp]
    exact ihr _ (horElse hy hx)
  | dslash _ _ ihl ihr =>
    intro x hx
    simp only [eval]
    refine down_bind (ihl x hx) fun y hy => ?_
    rw [moved_orElse E.fo hp]
    split
    · exact down_step E.fo hp n (by simp [Axis.Down]) _ (horElse hy hx)
    · exact ihr _ (horElse hy hx)
  | dslashStep _ ihl =>
    intro x hx
    simp only [eval]
    refine down_bind (ihl x hx) fun y hy => ?_
    rw [moved_orElse E.fo hp]
    exact down_step E.fo hp n (by simp [Axis.Down]) _ (horElse hy hx)
  | @pred l ps _ hps ihl ihps =>
    intro x hx
    simp only [eval]
    obtain ⟨h1, h2⟩ := ihl x hx
    rw [h1]
    refine down_predLoop ?_ 1 h2
    intro pos y hy
    rw [moved_orElse E.fo hp]
    have hz := horElse hy hx
    generalize y.orElse E.fo sub x = z at hz
    clear hps
    induction ps with
    | nil => simp only [evalPreds]
    | cons q qs ih =>
      simp only [evalPreds]
      rw [down_pred E.fo hp pos (ihps q (List.mem_cons_self ..) _ hz)]
      rw [ih fun q hq => ihps q (List.mem_cons_of_mem _ hq)]
  | union _ _ ihl ihr => intro x hx; simp only [eval]; exact down_union hp (ihl x hx) (ihr x hx)
  | eq _ _ ihl ihr => intro x hx; simp only [eval]; exact down_eq E.fo hp (ihl x hx) (ihr x hx)
  | ne _ _ ihl ihr =>
    intro x hx
    simp only [eval]
    refine down_need (ihl x hx) fun a _ => down_need (ihr x hx) fun b _ => ?_
    rw [moved_pyEq E.fo hp]
    exact down_one (by trivial)
  | rel _ _ ihl ihr =>
    intro x hx
    simp only [eval]
    refine down_need (ihl x hx) fun a _ => down_need (ihr x hx) fun b _ => ?_
    rw [moved_pyRel E.fo hp]
    split
    · exact down_one (by trivial)
    · exact down_const
  | and _ _ ihl ihr =>
    intro x hx
    simp only [eval]
    refine down_need (ihl x hx) fun a ha => ?_
    rw [moved_truthy E.fo hp]
    split
    · exact down_need (ihr x hx) fun b hb => down_one' hb
    · exact down_one' ha
  | or _ _ ihl ihr =>
    intro x hx
    simp only [eval]
    refine down_need (ihl x hx) fun a ha => ?_
    rw [moved_truthy E.fo hp]
    split
    · exact down_one' ha
    · exact down_need (ihr x hx) fun b hb => down_one' hb
  | @neg e _ ih =>
    intro x hx
    simp only [eval]
    obtain ⟨h1, _⟩ := ih x hx
    rw [h1]
    rcases eval E.fo sub E.vars n dyn e x with ⟨xs, t⟩
    cases xs with
    | nil => cases t <;> exact down_const
    | cons _ _ => exact down_const
  | arith => intro x hx; simp only [eval]; exact down_const
  | @seq es hes ih =>
    intro x hx
    simp only [eval]
    clear hes
    induction es with
    | nil => simp only [evalSeq]; exact down_const
    | cons e es ih2 =>
      simp only [evalSeq]
      exact down_append (ih e (List.mem_cons_self ..) x hx)
        (ih2 fun q hq => ih q (List.mem_cons_of_mem _ hq))
  | @call m es hm hes ih =>
    intro x hx
    simp only [eval]
    refine down_call E.fo hp hx hm ?_ ?_
    · intro y hy
      cases hes _ hy with
      | lit h => exact h
    · clear hes
      induction es with
      | nil => simp only [evalArgs]; exact .nil
      | cons e es ih2 =>
        simp only [evalArgs]
        exact .cons (ih e (List.mem_cons_self ..) x hx) (ih2 fun q hq => ih q (List.mem_cons_of_mem _ hq))
  | @each e s _ hs ihe _ =>
    intro x hx
    simp only [eval, evalArgs]
    have hc : ∀ (doc : Node) (dyn : Str → Except XErr (Item F → Res F)) (x : Item F) (es : List (Expr F)) (rs : List (Res F)),
        callFn E.fo doc dyn x "for-each".toList es rs = fnForEach E.fo doc dyn x rs := by
      intro doc dyn x es rs
      rfl
    rw [hc, hc]
    simp only [fnForEach]
    have hl : ∀ (doc : Node) (f : Str → Res F), strArg E.fo doc (.one (.str s)) f = f s := fun _ _ => rfl
    rw [hl, hl]
    cases hps : E.parse s with
    | error er =>
      obtain ⟨h1, h2⟩ := herr s er hps
      rw [h1, h2]
      exact down_const
    | ok g =>
      obtain ⟨h, h', h1, h2, h3⟩ := hok s g hps (hs g hps)
      rw [h1, h2]
      refine down_bind (ihe x hx) fun y hy => ?_
      rw [moved_orElse E.fo hp]
      exact h3 _ (horElse hy hx)

theorem down_run : ∀ (n : Nat) {e : Expr F}, E.LooksDown e → ∀ x : Item F, x ≠ .root →
    Down p (({ E with doc := sub } : Env F).run n e x) (E.run n e (x.moved p))
  | 0, e, he, x, hx => by
    refine down_eval E hp 0 ?_ ?_ he x hx
    · intro s er h
      simp only [h]
      exact ⟨rfl, rfl⟩
    · intro s g h _
      simp only [h]
      exact ⟨_, _, rfl, rfl, fun _ _ => down_const⟩
  | n + 1, e, he, x, hx => by
    refine down_eval E hp (n + 1) ?_ ?_ he x hx
    · intro s er h
      simp only [h]
      exact ⟨rfl, rfl⟩
    · intro s g h hg
      simp only [h]
      exact ⟨_, _, rfl, rfl, fun y hy => down_run n hg y hy⟩

end
end Amara
