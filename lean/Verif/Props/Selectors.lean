import Verif.Spec.Selectors
import Verif.Props.StreamTests
import Verif.Props.TreeUtil
/-
C173: the functions of treeutil select what the queries for the same thing find.
-/
namespace Amara

variable {F : Type}

/-! ### the children with a property -/

/-- The numbers of the nodes with a property, the first node being number `i`. -/
def idxFrom (f : Node → Bool) (i : Nat) : List Node → List Nat
  | [] => []
  | y :: r => if f y then i :: idxFrom f (i + 1) r else idxFrom f (i + 1) r

theorem idxFrom_mem (f : Node → Bool) : ∀ (cs : List Node) (i j : Nat),
    j ∈ idxFrom f i cs ↔ i ≤ j ∧ ∃ y, cs[j - i]? = some y ∧ f y = true
  | [], i, j => by simp [idxFrom]
  | y :: r, i, j => by
    have ih := idxFrom_mem f r (i + 1) j
    have key : (i + 1 ≤ j ∧ ∃ z, r[j - (i + 1)]? = some z ∧ f z = true) ↔ i < j ∧ ∃ z, (y :: r)[j - i]? = some z ∧ f z = true := by
      constructor
      · rintro ⟨h, z, hz⟩
        refine ⟨h, z, ?_⟩
        rw [show j - i = (j - (i + 1)) + 1 by omega]
        exact hz
      · rintro ⟨h, z, hz⟩
        refine ⟨h, z, ?_⟩
        rw [show j - i = (j - (i + 1)) + 1 by omega] at hz
        exact hz
    rw [idxFrom]
    by_cases hf : f y = true
    · rw [if_pos hf, List.mem_cons, ih, key]
      constructor
      · rintro (rfl | ⟨h, z⟩)
        · exact ⟨Nat.le_refl _, y, by simp, hf⟩
        · exact ⟨by omega, z⟩
      · rintro ⟨h, z⟩
        rcases Nat.eq_or_lt_of_le h with h | h
        · exact .inl h.symm
        · exact .inr ⟨h, z⟩
    · rw [if_neg hf, ih, key]
      constructor
      · rintro ⟨h, z⟩; exact ⟨by omega, z⟩
      · rintro ⟨h, z, h1, h2⟩
        rcases Nat.eq_or_lt_of_le h with rfl | h
        · simp only [Nat.sub_self, List.getElem?_cons_zero, Option.some.injEq] at h1
          subst h1
          exact absurd h2 hf
        · exact ⟨h, z, h1, h2⟩

theorem idxFrom_lt (f : Node → Bool) : ∀ (cs : List Node) (i : Nat), (idxFrom f i cs).Pairwise (· < ·)
  | [], _ => .nil
  | y :: r, i => by
    rw [idxFrom]
    split
    · refine .cons (fun j hj => ?_) (idxFrom_lt f r (i + 1))
      have := ((idxFrom_mem f r (i + 1) j).1 hj).1
      omega
    · exact idxFrom_lt f r (i + 1)

theorem idxFrom_nodes (f : Node → Bool) : ∀ (cs : List Node) (i : Nat), (idxFrom f i cs).map (fun j => cs[j - i]?) = (cs.filter f).map some
  | [], _ => rfl
  | y :: r, i => by
    have ih : (idxFrom f (i + 1) r).map (fun j => (y :: r)[j - i]?) = (r.filter f).map some := by
      rw [← idxFrom_nodes f r (i + 1)]
      refine List.map_congr_left fun j hj => ?_
      have := ((idxFrom_mem f r (i + 1) j).1 hj).1
      rw [show j - i = (j - (i + 1)) + 1 by omega]
      rfl
    by_cases hf : f y = true
    · rw [idxFrom, if_pos hf, List.filter_cons_of_pos hf, List.map_cons, List.map_cons, ih]
      simp
    · rw [idxFrom, if_neg hf, List.filter_cons_of_neg hf, ih]

theorem idxFrom_filter (f g : Node → Bool) : ∀ (cs : List Node) (i : Nat),
    idxFrom (fun x => f x && g x) i cs = (idxFrom f i cs).filter fun j => (cs[j - i]?).any g
  | [], _ => rfl
  | y :: r, i => by
    have ih : idxFrom (fun x => f x && g x) (i + 1) r = (idxFrom f (i + 1) r).filter fun j => ((y :: r)[j - i]?).any g := by
      rw [idxFrom_filter f g r (i + 1)]
      refine List.filter_congr fun j hj => ?_
      have := ((idxFrom_mem f r (i + 1) j).1 hj).1
      rw [show j - i = (j - (i + 1)) + 1 by omega]
      rfl
    rw [idxFrom, idxFrom, ih]
    cases hf : f y with
    | false => simp
    | true =>
      cases hg : g y with
      | false => simp [hg]
      | true => simp [hg]

/-! ### the queries -/

def Head.path : Head → CorePath
  | .all => .children
  | .named m => .step .child m

def Sieve.test : Sieve → ValueTest
  | .has k => .found (.core (.last (.attr k)))
  | .is k v => .is (.core (.last (.attr k))) v
  | .value v => .is (.path (.core .here)) v

def sieveTests : Sieve → List Sieve → Tests
  | s, [] => .one s.test
  | s, s' :: r => .more s.test (sieveTests s' r)

def selectorList (h : Head) : List Sieve → TestedList
  | [] => .path (.core h.path)
  | s :: r => .path (.filter (.core h.path) (sieveTests s r))

theorem head_writes (h : Head) : WritesStep (F := F) h.tokens h.path := by
  cases h with
  | all => exact .children
  | named m =>
    have := WritesStep.child (nameTok_word (F := F) m).1
    rw [(nameTok_word m).2] at this
    exact this

theorem sieve_writes (s : Sieve) : ∃ b w, WritesTest (F := F) b w s.test ∧ s.tokens = .lbrack :: (w ++ [.rbrack]) := by
  have ha : ∀ k, WritesTestedList (F := F) true [.at, X.nameTok k] (.core (.last (.attr k))) := by
    intro k
    have h := WritesEnd.attr (b := false) (nameTok_word (F := F) k).1
    rw [(nameTok_word k).2] at h
    exact .core (.rel (.last h))
  cases s with
  | has k => exact ⟨_, _, .found (ha k), rfl⟩
  | is k v => exact ⟨_, _, .is (ha k), rfl⟩
  | value v => exact ⟨_, _, .is (.path (.core (.rel (.step .here)))), rfl⟩

theorem sieves_write : ∀ (s : Sieve) (r : List Sieve), WritesTests (F := F) ((s :: r).flatMap Sieve.tokens) (sieveTests s r)
  | s, [] => by
    obtain ⟨b, w, h1, h2⟩ := sieve_writes (F := F) s
    rw [List.flatMap_cons, List.flatMap_nil, List.append_nil, h2]
    exact .one h1
  | s, s' :: r => by
    obtain ⟨b, w, h1, h2⟩ := sieve_writes (F := F) s
    rw [List.flatMap_cons, h2]
    exact .more h1 (sieves_write s' r)

theorem selector_writes (h : Head) (ss : List Sieve) : ∃ b, WritesTestedList (F := F) b (selectorTokens h ss) (selectorList h ss) := by
  have hp := WritesTested.core (WritesPath.rel (.step (head_writes (F := F) h)))
  cases ss with
  | nil =>
    rw [selectorTokens, List.flatMap_nil, List.append_nil]
    exact ⟨_, .path hp⟩
  | cons s r => exact ⟨_, .path (.filter hp (by simp) (sieves_write s r))⟩

theorem head_ok (h : Head) : h.path.Ok := by cases h <;> trivial

theorem sieve_ok {s : Sieve} (h : s.Ok) : s.test.Ok := by
  cases s with
  | has k => exact h
  | is k v => exact h
  | value v => trivial

theorem sieves_ok : ∀ (s : Sieve) (r : List Sieve), (∀ t ∈ s :: r, t.Ok) → (sieveTests s r).Ok
  | s, [], h => sieve_ok (h s (by simp))
  | s, s' :: r, h => ⟨sieve_ok (h s (by simp)), sieves_ok s' r fun t ht => h t (List.mem_cons_of_mem _ ht)⟩

theorem selector_ok (h : Head) (ss : List Sieve) (hs : ∀ t ∈ ss, t.Ok) : (selectorList h ss).Ok := by
  cases ss with
  | nil => exact head_ok h
  | cons s r => exact ⟨head_ok h, sieves_ok s r hs⟩

theorem sieves_down : ∀ (s : Sieve) (r : List Sieve), (sieveTests s r).down = true
  | s, [] => by cases s <;> rfl
  | s, s' :: r => by
    have := sieves_down s' r
    cases s <;> simp [sieveTests, Sieve.test, Tests.down, ValueTest.down, TestedList.down, TestedPath.down, CoreList.down, CorePath.down, this]

theorem selector_down (h : Head) (ss : List Sieve) : (selectorList h ss).down = true := by
  cases ss with
  | nil => cases h <;> rfl
  | cons s r => cases h <;> simp [selectorList, TestedList.down, TestedPath.down, Head.path, CorePath.down, sieves_down]

/-! ### what is selected -/

def Head.sel : Head → Node → Bool
  | .all, x => x.look.isSome
  | .named m, x => x.look.isSome && x.xmlName == m

def Sieve.sel : Sieve → Node → Bool
  | .has k, x => x.look.isSome && checkAttribute k none x
  | .is k v, x => x.look.isSome && checkAttribute k (some v) x
  | .value v, x => x.xmlValue == v

theorem head_select (src : Source) (h : Head) : h.select src = src.members.filter h.sel := by
  cases h with
  | all => rfl
  | named m =>
    simp only [Head.select, selectName, selectElements, List.filter_filter]
    exact List.filter_congr fun x _ => Bool.and_comm _ _

theorem sieve_select (xs : List Node) (s : Sieve) : s.select xs = xs.filter s.sel := by
  cases s with
  | has k =>
    simp only [Sieve.select, selectAttribute, selectElements, List.filter_filter, Source.members]
    exact List.filter_congr fun x _ => Bool.and_comm _ _
  | is k v =>
    simp only [Sieve.select, selectAttribute, selectElements, List.filter_filter, Source.members]
    exact List.filter_congr fun x _ => Bool.and_comm _ _
  | value v => rfl

theorem sieves_select : ∀ (ss : List Sieve) (xs : List Node), ss.foldl Sieve.select xs = xs.filter fun x => ss.all (·.sel x)
  | [], xs => (List.filter_eq_self.2 fun _ _ => rfl).symm
  | s :: r, xs => by
    rw [List.foldl_cons, sieves_select r, sieve_select, List.filter_filter]
    exact List.filter_congr fun x _ => by simp [Bool.and_comm]

theorem selected_eq (src : Source) (h : Head) (ss : List Sieve) :
    selected src h ss = src.members.filter fun x => h.sel x && ss.all (·.sel x) := by
  rw [selected, sieves_select, head_select, List.filter_filter]
  exact List.filter_congr fun x _ => Bool.and_comm _ _

/-! ### what the queries find -/

theorem child_at {d : Node} {q : Path} {n : Str} {as : Attrs} {cs : List Node} (hq : d.at? q = some (.elem n as cs)) (i : Nat) :
    d.at? (q ++ [i]) = cs[i]? := by
  rw [moved_at hq]
  simp only [Node.at?, Node.xmlChildren]
  cases cs[i]? <;> rfl

theorem head_sel_iff {d : Node} {p : Path} {h : Head} : (∃ y, d.at? p = some y ∧ h.sel y = true) ↔
    (match h with | .all => d.ElemAt p | .named m => d.Named m p) := by
  cases h with
  | all =>
    constructor
    · rintro ⟨y, h1, h2⟩
      cases y with
      | text => cases h2
      | elem m as cs => exact ⟨m, as, cs, h1⟩
    · rintro ⟨m, as, cs, h1⟩
      exact ⟨_, h1, rfl⟩
  | named m =>
    constructor
    · rintro ⟨y, h1, h2⟩
      cases y with
      | text => cases h2
      | elem m' as cs =>
        have : m' = m := by simpa [Head.sel, Node.look, Node.xmlName] using h2
        exact ⟨as, cs, this ▸ h1⟩
    · rintro ⟨as, cs, h1⟩
      exact ⟨_, h1, by simp [Head.sel, Node.look, Node.xmlName]⟩

theorem head_gives {d : Node} {q : Path} {n : Str} {as : Attrs} {cs : List Node} (hq : d.at? q = some (.elem n as cs)) (h : Head) :
    h.path.Gives d (.at q) ((idxFrom h.sel 0 cs).map fun i => .at (q ++ [i])) := by
  have hp : ((idxFrom h.sel 0 cs).map fun i => q ++ [i]).Pairwise (AxisBefore CoreAxis.child.axis) := by
    rw [List.pairwise_map]
    refine (idxFrom_lt h.sel cs 0).imp fun {i j} hij => ?_
    simp only [AxisBefore, CoreAxis.axis]
    exact docLt_snoc q hij
  have hm : ∀ w, w ∈ (idxFrom h.sel 0 cs).map (fun i => q ++ [i]) ↔ (Spot.at q).Reach .child w ∧ ∃ y, d.at? w = some y ∧ h.sel y = true := by
    intro w
    rw [List.mem_map]
    constructor
    · rintro ⟨i, h1, rfl⟩
      obtain ⟨_, y, h2, h3⟩ := (idxFrom_mem _ _ _ _).1 h1
      exact ⟨⟨i, rfl⟩, y, by rw [child_at hq]; exact h2, h3⟩
    · rintro ⟨⟨i, rfl⟩, y, h2, h3⟩
      rw [child_at hq] at h2
      exact ⟨i, (idxFrom_mem _ _ _ _).2 ⟨Nat.zero_le _, y, h2, h3⟩, rfl⟩
  cases h with
  | all =>
    refine ⟨_, (List.map_map (g := Spot.at) (f := fun i => q ++ [i])).symm, hp, fun w => ?_⟩
    rw [hm w, head_sel_iff (h := .all)]
  | named m =>
    refine ⟨_, (List.map_map (g := Spot.at) (f := fun i => q ++ [i])).symm, hp, fun w => ?_⟩
    rw [hm w, head_sel_iff (h := .named m)]

theorem get_iff {k v : Str} : ∀ {as : Attrs}, as.Pairwise (fun a b => a.1 ≠ b.1) → (as.get k = some v ↔ (k, v) ∈ as)
  | [], _ => by simp [Attrs.get]
  | (k', v') :: r, h => by
    rw [List.pairwise_cons] at h
    simp only [Attrs.get, List.mem_cons, Prod.mk.injEq]
    split
    · rename_i hk
      cases hk
      constructor
      · intro he; exact .inl ⟨rfl, (Option.some.inj he).symm⟩
      · rintro (⟨_, rfl⟩ | hm)
        · rfl
        · exact absurd rfl (h.1 (_, v) hm)
    · rename_i hk
      rw [get_iff h.2]
      constructor
      · exact .inr
      · rintro (⟨rfl, _⟩ | hm)
        · exact absurd rfl hk
        · exact hm

theorem attrAt_iff {d : Node} (hdict : d.Dicts) {p : Path} {m : Str} {as : Attrs} {cs : List Node} (hp : d.at? p = some (.elem m as cs)) (k v : Str) :
    d.AttrAt (.at p) k v ↔ as.get k = some v := by
  rw [get_iff (hdict p m as cs hp)]
  constructor
  · rintro ⟨m', as', cs', h1, h2⟩
    rw [hp] at h1
    cases h1
    exact h2
  · intro h
    exact ⟨m, as, cs, hp, h⟩

theorem sieve_holds {d : Node} (hdict : d.Dicts) {p : Path} {m : Str} {as : Attrs} {cs : List Node} (hp : d.at? p = some (.elem m as cs)) (s : Sieve) :
    s.sel (.elem m as cs) = true ↔ s.test.Holds d (.at p) := by
  cases s with
  | has k =>
    simp only [Sieve.sel, Sieve.test, ValueTest.Holds, TestedList.Gives, CoreList.Gives, CoreEnd.Gives, attrAt_iff hdict hp, Node.look, Option.isSome_some,
      Bool.true_and, checkAttribute, Node.xmlAttributes]
    cases as.get k with
    | none => simp
    | some v => simp
  | is k v =>
    simp only [Sieve.sel, Sieve.test, ValueTest.Holds, TestedList.Gives, CoreList.Gives, CoreEnd.Gives, attrAt_iff hdict hp, Node.look, Option.isSome_some,
      Bool.true_and, checkAttribute, Node.xmlAttributes]
    cases as.get k with
    | none => simp
    | some v' =>
      constructor
      · intro h
        have : v' = v := by simpa using h
        subst this
        exact ⟨_, _, .inl ⟨p, v', rfl, rfl, rfl⟩, rfl⟩
      · rintro ⟨f, fs, ⟨p', v'', h1, h2, h3⟩ | ⟨h1, h2⟩, h4⟩
        · cases h3
          cases h2
          have : v' = v := h4
          simp [this]
        · cases h2
  | value v =>
    simp only [Sieve.sel, Sieve.test, ValueTest.Holds, TestedList.Gives, TestedPath.Gives, CorePath.Gives]
    constructor
    · intro h
      refine ⟨.node (.at p), [], ⟨_, rfl, rfl⟩, ?_⟩
      simp only [Node.valueOf, Node.valueAt, hp]
      rw [← xmlValue_texts.1]
      simpa using h
    · rintro ⟨f, fs, ⟨vs, rfl, h2⟩, h3⟩
      cases h2
      simp only [Node.valueOf, Node.valueAt, hp] at h3
      rw [← xmlValue_texts.1] at h3
      simpa using h3

theorem sieves_hold {d : Node} (hdict : d.Dicts) {p : Path} {m : Str} {as : Attrs} {cs : List Node} (hp : d.at? p = some (.elem m as cs)) :
    ∀ (s : Sieve) (r : List Sieve), ((s :: r).all (·.sel (.elem m as cs)) = true ↔ (sieveTests s r).Hold d (.at p))
  | s, [] => by
    simp only [List.all_cons, List.all_nil, Bool.and_true]
    exact sieve_holds hdict hp s
  | s, s' :: r => by
    rw [List.all_cons, Bool.and_eq_true, sieve_holds hdict hp s, sieves_hold hdict hp s' r]
    rfl

theorem onlyThose_some {α : Type} {P : Spot → Prop} {g : α → Spot} {f : α → Bool} : ∀ l : List α, (∀ i ∈ l, f i = true ↔ P (g i)) →
    OnlyThose P (l.map g) ((l.filter f).map g)
  | [], _ => rfl
  | i :: l, h => by
    have ih := onlyThose_some l fun j hj => h j (List.mem_cons_of_mem _ hj)
    by_cases hf : f i = true
    · rw [List.filter_cons_of_pos hf]
      exact .inl ⟨(h i (by simp)).1 hf, _, rfl, ih⟩
    · rw [List.filter_cons_of_neg hf]
      exact .inr ⟨fun hp => hf ((h i (by simp)).2 hp), ih⟩

theorem selector_gives {d : Node} (hdict : d.Dicts) {q : Path} {n : Str} {as : Attrs} {cs : List Node} (hq : d.at? q = some (.elem n as cs)) (h : Head)
    (ss : List Sieve) : (selectorList h ss).Gives d (.at q)
      ((idxFrom (fun x => h.sel x && ss.all (·.sel x)) 0 cs).map fun i => .node (.at (q ++ [i]))) := by
  cases ss with
  | nil =>
    refine ⟨_, head_gives hq h, ?_⟩
    simp only [List.all_nil, Bool.and_true, List.map_map]
    rfl
  | cons s r =>
    refine ⟨(idxFrom (fun x => h.sel x && (s :: r).all (·.sel x)) 0 cs).map fun i => .at (q ++ [i]), ⟨_, head_gives hq h, ?_⟩, ?_⟩
    · rw [idxFrom_filter]
      refine onlyThose_some _ fun i hi => ?_
      obtain ⟨_, y, h1, h2⟩ := (idxFrom_mem _ _ _ _).1 hi
      rw [Nat.sub_zero] at h1 ⊢
      have hy : ∃ m bs ds, y = .elem m bs ds := by
        cases y with
        | text => cases h <;> cases h2
        | elem m bs ds => exact ⟨m, bs, ds, rfl⟩
      obtain ⟨m, bs, ds, rfl⟩ := hy
      rw [h1, Option.any_some]
      exact sieves_hold hdict (by rw [child_at hq]; exact h1) s r
    · simp only [List.map_map]
      rfl

/-! ### asking -/

theorem ask_from (fo : FloatOps F) (vars : Str → Option (Item F)) (k : Nat) {d : Node} (hd : d.NoEmptyText) (hdict : d.Dicts) {q : Path} (hq : d.ElemAt q)
    {l : TestedList} (hl : l.Ok) (hdn : l.down = true) {b : Bool} {w : List (X.Tok F)} (hw : WritesTestedList b w l) {s : Str}
    (hs : X.Written fo (fromElement q w) s) {fs : List Found} (hg : l.Gives d (.at q) fs) :
    xmlXPath fo vars k d q (.str s) = ⟨fs.map Found.item, .done⟩ := by
  by_cases h : q = []
  · subst h
    rw [fromElement, if_pos rfl] at hs
    have hx : d.isText = false := by
      obtain ⟨m, as, cs, h⟩ := hq
      cases d with
      | text => cases h
      | elem => rfl
    have hparse := C167_is_read fo (writes_under (wp := [.star]) (.step .children) hw hdn) hs
    have hu := (under_testedList_one (children_of_root hd hdict hx) l fs).2 hg
    have h1 := (C166_exactly (queryEnv fo vars d) hd hdict k (under_ok (pre := .children) trivial l hl) (u := .root) trivial _).2 ⟨fs, hu, rfl⟩
    simp only [xmlXPath, parseText_eq hparse, contextItem, if_true]
    exact h1
  · rw [fromElement, if_neg h] at hs
    have h1 := (C166_exactly (queryEnv fo vars d) hd hdict k hl (u := .at q) hq _).2 ⟨fs, hg, rfl⟩
    simp only [xmlXPath, parseText_eq (C167_is_read fo hw hs), contextItem, if_neg h]
    exact h1

/-- C173: `select_elements(e)` or `select_name(e, m)`, and then any number of `select_attribute(…, k)`, `select_attribute(…, k, v)` and
`select_value(…, v)` applied one after the other, select just the children that `e.xml_xpath` finds for `*` or `m` with brackets
`[@k]`, `[@k='v']` and `[.='v']` in the same order. -/
theorem C173_selectors (fo : FloatOps F) (vars : Str → Option (Item F)) (k : Nat) {d : Node} (hd : d.NoEmptyText) (hdict : d.Dicts) {q : Path} {n : Str}
    {as : Attrs} {cs : List Node} (hq : d.at? q = some (.elem n as cs)) (h : Head) (ss : List Sieve) (hss : ∀ t ∈ ss, t.Ok) {s : Str}
    (hs : X.Written fo (fromElement q (selectorTokens h ss)) s) :
    ∃ is : List Nat, is.Pairwise (· < ·) ∧ is.map (cs[·]?) = (selected (.element n as cs) h ss).map some ∧
      xmlXPath fo vars k d q (.str s) = ⟨is.map fun i => .node (q ++ [i]), .done⟩ := by
  obtain ⟨b, hw⟩ := selector_writes (F := F) h ss
  refine ⟨idxFrom (fun x => h.sel x && ss.all (·.sel x)) 0 cs, idxFrom_lt _ _ _, ?_, ?_⟩
  · rw [selected_eq]
    exact idxFrom_nodes _ cs 0
  · rw [ask_from fo vars k hd hdict ⟨n, as, cs, hq⟩ (selector_ok h ss hss) (selector_down h ss) hw hs (selector_gives hdict hq h ss)]
    simp only [List.map_map]
    rfl

/-! ### patterns -/

/-- The children of the element at `p` that the selector takes. -/
def kids (d : Node) (p : Path) (g : Head) : List Path :=
  match d.at? p with
  | some y => (idxFrom g.sel 0 y.xmlChildren).map fun i => p ++ [i]
  | none => []

/-- What is reached by one selector after the other. -/
def reached (d : Node) : List Head → Path → List Path
  | [], p => [p]
  | g :: r, p => (kids d p g).flatMap (reached d r)

theorem reached_snoc (d : Node) (g : Head) : ∀ (hs : List Head) (p : Path), reached d (hs ++ [g]) p = (reached d hs p).flatMap fun w => kids d w g
  | [], p => by simp [reached]
  | h :: r, p => by
    simp only [List.cons_append, reached, List.flatMap_assoc]
    congr 1
    funext w
    exact reached_snoc d g r w

theorem kids_elem {d : Node} {p w : Path} {g : Head} (h : w ∈ kids d p g) : d.ElemAt w := by
  unfold kids at h
  split at h
  · rename_i y hy
    obtain ⟨i, h1, rfl⟩ := List.mem_map.1 h
    obtain ⟨_, z, h2, h3⟩ := (idxFrom_mem _ _ _ _).1 h1
    have hz : d.at? (p ++ [i]) = some z := by
      cases y with
      | text => cases h2
      | elem m as cs => rw [child_at hy]; exact h2
    cases z with
    | text => cases g <;> cases h3
    | elem m as cs => exact ⟨m, as, cs, hz⟩
  · cases h

theorem kids_give {d : Node} {p : Path} (hp : d.ElemAt p) (g : Head) : g.path.Gives d (.at p) ((kids d p g).map .at) := by
  obtain ⟨m, as, cs, h⟩ := hp
  have := head_gives h g
  simp only [kids, h, Node.xmlChildren, List.map_map]
  exact this

theorem inTurn_places {R : Spot → List Spot → Prop} {f : Path → List Path} : ∀ ps : List Path, (∀ p ∈ ps, R (.at p) ((f p).map .at)) →
    InTurn R (ps.map .at) ((ps.flatMap f).map .at)
  | [], _ => rfl
  | p :: ps, h => ⟨_, _, by rw [List.flatMap_cons, List.map_append], h p (by simp), inTurn_places ps fun q hq => h q (List.mem_cons_of_mem _ hq)⟩

/-- The path `h/g₁/…/gₖ`. -/
def patternPath (h : Head) (hs : List Head) : CorePath := hs.foldl (fun p g => .seq p g.path) h.path

theorem pattern_snoc (h : Head) (hs : List Head) (g : Head) : patternPath h (hs ++ [g]) = .seq (patternPath h hs) g.path := by
  simp [patternPath]

theorem pattern_writes (h : Head) (hs : List Head) : WritesRel (F := F) (patternTokens h hs) (patternPath h hs) := by
  induction hs using list_snoc_induct with
  | h0 =>
    rw [patternTokens, List.flatMap_nil, List.append_nil]
    exact .step (head_writes h)
  | h1 hs g ih =>
    have := WritesRel.slash ih (head_writes g)
    rw [pattern_snoc]
    simpa [patternTokens] using this

theorem pattern_ok (h : Head) (hs : List Head) : (patternPath h hs).Ok := by
  induction hs using list_snoc_induct with
  | h0 => exact head_ok h
  | h1 hs g ih => rw [pattern_snoc]; exact ⟨ih, head_ok g⟩

theorem pattern_down (h : Head) (hs : List Head) : (patternPath h hs).down = true := by
  induction hs using list_snoc_induct with
  | h0 => cases h <;> rfl
  | h1 hs g ih => rw [pattern_snoc]; cases g <;> simp [CorePath.down, ih, Head.path]

theorem pattern_gives {d : Node} {q : Path} (hq : d.ElemAt q) (h : Head) (hs : List Head) :
    (patternPath h hs).Gives d (.at q) ((reached d (h :: hs) q).map .at) ∧ ∀ w ∈ reached d (h :: hs) q, d.ElemAt w := by
  induction hs using list_snoc_induct with
  | h0 =>
    have : reached d [h] q = kids d q h := by simp [reached]
    rw [this]
    exact ⟨kids_give hq h, fun w hw => kids_elem hw⟩
  | h1 hs g ih =>
    rw [pattern_snoc, ← List.cons_append, reached_snoc]
    refine ⟨⟨_, ih.1, inTurn_places _ fun p hp => kids_give (ih.2 p hp) g⟩, fun w hw => ?_⟩
    obtain ⟨p, _, h1⟩ := List.mem_flatMap.1 hw
    exact kids_elem h1

theorem patStep_head (h : Head) (r : List (Stage Node)) (x : Node) :
    patStep Node.look (h.stage :: r) x = if h.sel x then .to r else .none := by
  cases h with
  | all => rfl
  | named m =>
    cases x with
    | text => rfl
    | elem n as cs => simp [Head.stage, patStep, Head.sel, Node.look, Node.xmlName]

theorem select_reached {d : Node} {q : Path} : ∀ (hs : List Head) (h : Head) (p : Path) (x : Node), d.at? (q ++ p) = some x →
    (x.selectState p ((h :: hs).map Head.stage)).2 = false ∧
    (x.selectState p ((h :: hs).map Head.stage)).1.map (fun r => q ++ r.1) = reached d (h :: hs) (q ++ p) ∧
    ∀ r ∈ (x.selectState p ((h :: hs).map Head.stage)).1, d.at? (q ++ r.1) = some r.2 := by
  intro hs
  induction hs with
  | nil =>
    intro h p x hx
    have hr : reached d [h] (q ++ p) = kids d (q ++ p) h := by simp [reached]
    rw [hr]
    cases x with
    | text s => simp [Node.selectState, kids, hx, Node.xmlChildren, idxFrom]
    | elem m as cs =>
      simp only [Node.selectState, kids, hx, Node.xmlChildren, List.map_cons, List.map_nil]
      have key : ∀ (l : List Node) (i : Nat), (∀ j, l[j]? = cs[i + j]?) →
          (Node.selectStates p [h.stage] i l).2 = false ∧
          (Node.selectStates p [h.stage] i l).1.map (fun r => q ++ r.1) = (idxFrom h.sel i l).map (fun i => q ++ p ++ [i]) ∧
          ∀ r ∈ (Node.selectStates p [h.stage] i l).1, d.at? (q ++ r.1) = some r.2 := by
        intro l
        induction l with
        | nil => intro i _; simp [Node.selectStates, idxFrom]
        | cons y l ih =>
          intro i hl
          have hy : d.at? (q ++ (p ++ [i])) = some y := by
            rw [← List.append_assoc, child_at hx, show cs[i]? = some y from (hl 0).symm]
          obtain ⟨a1, a2, a3⟩ := ih (i + 1) fun j => by
            rw [show i + 1 + j = i + (j + 1) by omega, ← hl (j + 1)]; rfl
          rw [Node.selectStates, patStep_head, idxFrom]
          cases hsel : h.sel y with
          | false => exact ⟨a1, a2, a3⟩
          | true =>
            simp only [if_true, thenGen, Bool.false_eq_true, if_false]
            refine ⟨a1, ?_, ?_⟩
            · simp [a2]
            · intro r hr
              rcases List.mem_append.1 hr with hr | hr
              · rw [List.mem_singleton.1 hr]; exact hy
              · exact a3 r hr
      exact key cs 0 fun j => by rw [Nat.zero_add]
  | cons g hs IH =>
    intro h p x hx
    cases x with
    | text s => simp [Node.selectState, reached, kids, hx, Node.xmlChildren, idxFrom]
    | elem m as cs =>
      rw [List.map_cons, Node.selectState, reached]
      simp only [kids, hx, Node.xmlChildren]
      have key : ∀ (l : List Node) (i : Nat), (∀ j, l[j]? = cs[i + j]?) →
          (Node.selectStates p (h.stage :: (g :: hs).map Head.stage) i l).2 = false ∧
          (Node.selectStates p (h.stage :: (g :: hs).map Head.stage) i l).1.map (fun r => q ++ r.1) =
            ((idxFrom h.sel i l).map (fun i => q ++ p ++ [i])).flatMap (reached d (g :: hs)) ∧
          ∀ r ∈ (Node.selectStates p (h.stage :: (g :: hs).map Head.stage) i l).1, d.at? (q ++ r.1) = some r.2 := by
        intro l
        induction l with
        | nil => intro i _; simp [Node.selectStates, idxFrom]
        | cons y l ih =>
          intro i hl
          have hy : d.at? (q ++ (p ++ [i])) = some y := by
            rw [← List.append_assoc, child_at hx, show cs[i]? = some y from (hl 0).symm]
          obtain ⟨a1, a2, a3⟩ := ih (i + 1) fun j => by
            rw [show i + 1 + j = i + (j + 1) by omega, ← hl (j + 1)]; rfl
          obtain ⟨b1, b2, b3⟩ := IH g (p ++ [i]) y hy
          rw [Node.selectStates, patStep_head, idxFrom]
          cases hsel : h.sel y with
          | false => exact ⟨a1, a2, a3⟩
          | true =>
            simp only [if_true]
            rw [List.map_cons] at b1 b2 b3 ⊢
            simp only [thenGen, b1, Bool.false_eq_true, if_false]
            rw [List.map_cons] at a1 a2 a3
            refine ⟨a1, ?_, ?_⟩
            · rw [List.map_append, b2, a2, List.map_cons, List.flatMap_cons, List.append_assoc]
            · intro r hr
              rcases List.mem_append.1 hr with hr | hr
              · exact b3 r hr
              · exact a3 r hr
      exact key cs 0 fun j => by rw [Nat.zero_add]

theorem no_tuple_heads (hs : List Head) : NoTupleNames (hs.map Head.stage) := by
  intro s hs' subs he
  obtain ⟨h, _, rfl⟩ := List.mem_map.1 hs'
  cases h <;> cases he

/-- C173: `select_pattern(e, (h, g₁, …, gₖ))` with names and `'*'` selects just what `e.xml_xpath('h/g₁/…/gₖ')` finds, in the same order. -/
theorem C173_patterns (fo : FloatOps F) (vars : Str → Option (Item F)) (k : Nat) {d : Node} (hd : d.NoEmptyText) (hdict : d.Dicts) {q : Path} {x : Node}
    (hq : d.at? q = some x) (hx : x.isText = false) (h : Head) (hs : List Head) {s : Str}
    (hw : X.Written fo (fromElement q (patternTokens h hs)) s) :
    (selectPattern x ((h :: hs).map Head.stage)).2 = false ∧
    (∀ r ∈ (selectPattern x ((h :: hs).map Head.stage)).1, d.at? (q ++ r.1) = some r.2) ∧
    xmlXPath fo vars k d q (.str s) = ⟨(selectPattern x ((h :: hs).map Head.stage)).1.map fun r => .node (q ++ r.1), .done⟩ := by
  have hqe : d.ElemAt q := by
    cases x with
    | text => cases hx
    | elem m as cs => exact ⟨m, as, cs, hq⟩
  rw [selectPattern, prepPattern_some (no_tuple_heads _)]
  obtain ⟨a1, a2, a3⟩ := select_reached (d := d) (q := q) hs h [] x (by rw [List.append_nil]; exact hq)
  refine ⟨a1, a3, ?_⟩
  have hg : (TestedList.path (.core (patternPath h hs))).Gives d (.at q) (((reached d (h :: hs) q).map .at).map .node) :=
    ⟨_, (pattern_gives hqe h hs).1, rfl⟩
  rw [ask_from fo vars k hd hdict hqe (l := .path (.core (patternPath h hs))) (pattern_ok h hs) (pattern_down h hs)
    (.path (.core (.rel (pattern_writes h hs)))) hw hg]
  rw [List.append_nil] at a2
  rw [← a2]
  simp only [List.map_map]
  rfl

/-! ### descendants and following siblings -/

/-- C173: the descendants with a name, which are `select_name(descendants(e), m)`, are what `descendant::m` finds. -/
theorem C173_descendants (fo : FloatOps F) (vars : Str → Option (Item F)) (k : Nat) {d : Node} (hd : d.NoEmptyText) (hdict : d.Dicts) {q : Path} {x : Node}
    (hq : d.at? q = some x) (hx : x.isText = false) (m : Str) {s : Str}
    (hw : X.Written fo (fromElement q [.name "descendant".toList, .axisSep, X.nameTok m]) s) :
    ∃ rs : List (Path × Node), rs = (x.descendants []).filter (fun r => r.2.look == some m) ∧
      rs.map Prod.snd = selectName (.items ((x.descendants []).map Prod.snd)) m ∧
      xmlXPath fo vars k d q (.str s) = ⟨rs.map fun r => .node (q ++ r.1), .done⟩ := by
  have hqe : d.ElemAt q := by
    cases x with
    | text => cases hx
    | elem m as cs => exact ⟨m, as, cs, hq⟩
  obtain ⟨a1, a2, _⟩ := C37_descendants x
  refine ⟨_, rfl, ?_, ?_⟩
  · simp only [selectName, selectElements, Source.members, List.filter_filter, List.filter_map]
    congr 1
    refine List.filter_congr fun r _ => ?_
    cases r with
    | mk p y => cases y with
      | text => simp [Node.look]
      | elem n as cs => simp [Node.look, Node.xmlName]
  · have hg : (TestedList.path (.core (.step .descendant m))).Gives d (.at q)
        (((((x.descendants []).filter (fun r => r.2.look == some m)).map fun r => q ++ r.1).map .at).map .node) := by
      refine ⟨_, ⟨_, rfl, ?_, fun w => ?_⟩, rfl⟩
      · rw [List.pairwise_map]
        refine (a2.filter _).imp fun {a b} hab => ?_
        simp only [AxisBefore, CoreAxis.axis]
        exact (docLt_front q).2 hab
      · rw [List.mem_map]
        constructor
        · rintro ⟨⟨p, y⟩, h1, rfl⟩
          obtain ⟨h2, h3⟩ := List.mem_filter.1 h1
          obtain ⟨h4, h5, _⟩ := (a1 p y).1 h2
          refine ⟨⟨p, h4, rfl⟩, ?_⟩
          cases y with
          | text => cases h3
          | elem n as cs =>
            have : n = m := by simpa [Node.look] using h3
            exact ⟨as, cs, by rw [moved_at hq, h5, this]⟩
        · rintro ⟨⟨p, h4, rfl⟩, as, cs, h5⟩
          rw [moved_at hq] at h5
          exact ⟨(p, .elem m as cs), List.mem_filter.2 ⟨(a1 _ _).2 ⟨h4, h5, rfl⟩, by simp [Node.look]⟩, rfl⟩
    have hwr : WritesStep (F := F) [.name "descendant".toList, .axisSep, X.nameTok m] (.step .descendant m) := by
      have := WritesStep.axis (x := "descendant".toList) (a := .descendant) (by simp [X.axisTable, CoreAxis.axis]) (nameTok_word (F := F) m).1
      rw [(nameTok_word m).2] at this
      exact this
    rw [ask_from fo vars k hd hdict hqe (l := .path (.core (.step .descendant m))) (by trivial) rfl (.path (.core (.rel (.step hwr)))) hw hg]
    simp only [List.map_map]
    rfl

/-- C173: the following siblings of an element with a name are what `following-sibling::m` finds. -/
theorem C173_following_siblings (fo : FloatOps F) (vars : Str → Option (Item F)) (k : Nat) {d : Node} (hd : d.NoEmptyText) (hdict : d.Dicts) {u : Path}
    {n : Str} {as : Attrs} {cs : List Node} (hu : d.at? u = some (.elem n as cs)) {i : Nat} {x : Node} (hi : cs[i]? = some x) (hx : x.isText = false)
    (m : Str) {s : Str} (hw : X.Written fo [.name "following-sibling".toList, .axisSep, X.nameTok m] s) :
    xmlXPath fo vars k d (u ++ [i]) (.str s) =
      ⟨((followingSiblings cs i).filter fun j => (cs[j]?).any fun y => y.look == some m).map fun j => .node (u ++ [j]), .done⟩ := by
  obtain ⟨n', as', ds, rfl⟩ : ∃ n as ds, x = .elem n as ds := by
    cases x with
    | text => cases hx
    | elem n as ds => exact ⟨n, as, ds, rfl⟩
  have hqe : d.ElemAt (u ++ [i]) := ⟨n', as', ds, by rw [child_at hu]; exact hi⟩
  have hwr : WritesStep (F := F) [.name "following-sibling".toList, .axisSep, X.nameTok m] (.step .followingSibling m) := by
    have := WritesStep.axis (x := "following-sibling".toList) (a := .followingSibling) (by simp [X.axisTable, CoreAxis.axis]) (nameTok_word (F := F) m).1
    rw [(nameTok_word m).2] at this
    exact this
  have hp := C167_is_read fo (.path (.core (.rel (.step hwr)))) hw
  have hg : (TestedList.path (.core (.step .followingSibling m))).Gives d (.at (u ++ [i]))
      (((((followingSiblings cs i).filter fun j => (cs[j]?).any fun y => y.look == some m).map fun j => u ++ [j]).map .at).map .node) := by
    rw [C39_element hi]
    refine ⟨_, ⟨_, rfl, ?_, fun w => ?_⟩, rfl⟩
    · rw [List.pairwise_map]
      have hlt : (List.range' (i + 1) (cs.length - (i + 1))).Pairwise (· < ·) := List.pairwise_lt_range'
      refine (hlt.filter _).imp fun {a b} hab => ?_
      simp only [AxisBefore, CoreAxis.axis]
      exact docLt_snoc u hab
    · rw [List.mem_map]
      constructor
      · rintro ⟨j, h1, rfl⟩
        obtain ⟨h2, h3⟩ := List.mem_filter.1 h1
        obtain ⟨h4, h5⟩ := List.mem_range'_1.1 h2
        refine ⟨⟨u, i, j, rfl, rfl, by omega⟩, ?_⟩
        cases hc : cs[j]? with
        | none => rw [hc] at h3; cases h3
        | some y =>
          rw [hc] at h3
          cases y with
          | text => cases h3
          | elem n2 as2 cs2 =>
            have : n2 = m := by simpa [Node.look] using h3
            exact ⟨as2, cs2, by rw [child_at hu, hc, this]⟩
      · rintro ⟨⟨u', i', j, h1, rfl, h2⟩, as2, cs2, h3⟩
        obtain ⟨rfl, h4⟩ := List.append_inj' h1 rfl
        cases h4
        rw [child_at hu] at h3
        have := (List.getElem?_eq_some_iff.1 h3).1
        exact ⟨j, List.mem_filter.2 ⟨List.mem_range'_1.2 ⟨by omega, by omega⟩, by simp [h3, Node.look]⟩, rfl⟩
  have h1 := (C166_exactly (queryEnv fo vars d) hd hdict k (l := .path (.core (.step .followingSibling m))) (by trivial) (u := .at (u ++ [i])) hqe _).2 ⟨_, hg, rfl⟩
  have hne : u ++ [i] ≠ [] := by simp
  simp only [xmlXPath, parseText_eq hp, contextItem, if_neg hne]
  refine Eq.trans h1 ?_
  simp only [List.map_map]
  rfl

/-! ### examples -/

/-- `<r><b k="v">x</b><c k="w">x</c>x<b>y</b></r>` -/
def exSel : Node := .elem ['r'] [] [.elem ['b'] [(['k'], ['v'])] [.text ['x']], .elem ['c'] [(['k'], ['w'])] [.text ['x']], .text ['x'],
  .elem ['b'] [] [.text ['y']]]

theorem exSel_plain : exSel.NoEmptyText := noEmptyText_of (by decide) (by decide)

-- `select_value(select_attribute(select_elements(e), 'k'), 'x')` and `*/*[@k][.='x']`, asked of the document element
example : selected (.element ['r'] [] exSel.xmlChildren) .all [.has ['k'], .value ['x']] =
      [.elem ['b'] [(['k'], ['v'])] [.text ['x']], .elem ['c'] [(['k'], ['w'])] [.text ['x']]] ∧
    fromElement (F := NoF) [] (selectorTokens .all [.has ['k'], .value ['x']]) =
      [.star, .pathSep, .star, .lbrack, .at, .name ['k'], .rbrack, .lbrack, .dot, .equal false, .literal ['x'], .rbrack] ∧
    xmlXPath noFloats (fun _ => none) 0 exSel [] (.str "*/*[@k][.='x']".toList) = ⟨[.node [0], .node [1]], .done⟩ := by
  have h1 : X.xparse noFloats "*/*[@k][.='x']".toList = some (.ok ((selectorList .all [.has ['k'], .value ['x']]).under .children).expr) := by
    with_unfolding_all rfl
  rw [asked_parsed h1]
  refine ⟨by decide, by decide, by decide +kernel⟩

-- the text has those tokens
example : ∃ s, X.Written noFloats (fromElement [] (selectorTokens .all [.has ['k'], .value ['x']])) s := by
  refine C167_can_be_spelled noFloats _ fun t ht => ?_
  rw [show fromElement (F := NoF) [] (selectorTokens .all [.has ['k'], .value ['x']]) =
      [.star, .pathSep, .star, .lbrack, .at, X.nameTok ['k'], .rbrack, .lbrack, .dot, .equal false, .literal ['x'], .rbrack] from rfl] at ht
  simp only [List.mem_cons, List.not_mem_nil] at ht
  rcases ht with rfl | rfl | rfl | rfl | rfl | rfl | rfl | rfl | rfl | rfl | rfl | rfl | h
  · exact ⟨_, .star⟩
  · exact ⟨_, .pathSep⟩
  · exact ⟨_, .star⟩
  · exact ⟨_, .lbrack⟩
  · exact ⟨_, .at⟩
  · exact ⟨_, (queryName_spells noFloats (n := ['k']) ⟨⟨_, _, rfl, by decide, by simp⟩, by simp⟩ (r := []) (by rintro c s h; cases h)).1⟩
  · exact ⟨_, .rbrack⟩
  · exact ⟨_, .lbrack⟩
  · exact ⟨_, .dot⟩
  · exact ⟨_, .eq⟩
  · exact ⟨_, .single (by decide)⟩
  · exact ⟨_, .rbrack⟩
  · exact h.elim

-- patterns, descendants and siblings
example : (selectPattern exSel [.star]).1.map (·.1) = [[0], [1], [3]] ∧ (selectPattern exSel [.name ['b']]).1.map (·.1) = [[0], [3]] ∧
    ((exSel.descendants []).filter (fun r => r.2.look == some ['b'])).map (·.1) = [[0], [3]] ∧
    (followingSiblings exSel.xmlChildren 0).filter (fun j => (exSel.xmlChildren[j]?).any fun y => y.look == some ['b']) = [3] := by
  decide

/-- C173: applied to an element, `select_value` also takes texts: it is not `*[.='x']`. -/
theorem C173_select_value_takes_texts : selectValue (.element ['r'] [] exSel.xmlChildren) ['x'] =
      [.elem ['b'] [(['k'], ['v'])] [.text ['x']], .elem ['c'] [(['k'], ['w'])] [.text ['x']], .text ['x']] ∧
    selected (.element ['r'] [] exSel.xmlChildren) .all [.value ['x']] =
      [.elem ['b'] [(['k'], ['v'])] [.text ['x']], .elem ['c'] [(['k'], ['w'])] [.text ['x']]] := by
  decide

end Amara
