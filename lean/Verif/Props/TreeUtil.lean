import Verif.Spec.Path
import Verif.Spec.Pretty
import Verif.Spec.MicroXml
import Verif.Lemmas.Pattern
import Verif.Props.Tree
/-
C37-C42: the tree utilities.
-/
namespace Amara

/-! ### positions -/

theorem docLt_front (p : Path) {q r : Path} : docLt (p ++ q) (p ++ r) ↔ docLt q r := by
  induction p with
  | nil => rfl
  | cons i p ih => simp [docLt, ih]

theorem docLt_sibling (p : Path) {i j : Nat} (h : i < j) (q r : Path) : docLt (p ++ i :: q) (p ++ j :: r) := by
  rw [docLt_front]; exact .inl h

theorem docLt_child (p : Path) (i : Nat) (q : Path) : docLt p (p ++ i :: q) := by
  have := docLt_front p (q := []) (r := i :: q)
  rw [List.append_nil] at this
  exact this.2 trivial

theorem docLt_irrefl : ∀ p, ¬ docLt p p := by
  intro p
  induction p with
  | nil => exact id
  | cons i p ih => simp [docLt, ih]

/-! ### C37 -/

theorem descendants_mem :
    (∀ (x : Node) (p q : Path) (y : Node), (q, y) ∈ x.descendants p ↔
      ∃ r, r ≠ [] ∧ q = p ++ r ∧ x.at? r = some y ∧ y.isText = false) ∧
    (∀ (xs : List Node) (p : Path) (i : Nat) (q : Path) (y : Node), (q, y) ∈ Node.descendantsList p i xs ↔
      ∃ j x r, xs[j]? = some x ∧ q = p ++ (i + j) :: r ∧ x.at? r = some y ∧ y.isText = false) := by
  apply Node.induct
  case elem =>
    intro n as cs ih p q y
    rw [Node.descendants, ih]
    constructor
    · rintro ⟨j, x, r, h1, h2, h3, h4⟩
      refine ⟨j :: r, by simp, by simpa using h2, ?_, h4⟩
      simp [Node.at?, Node.xmlChildren, h1, h3]
    · rintro ⟨r, h1, h2, h3, h4⟩
      cases r with
      | nil => exact absurd rfl h1
      | cons j r =>
        simp only [Node.at?, Node.xmlChildren] at h3
        cases hj : cs[j]? with
        | none => rw [hj] at h3; cases h3
        | some x => rw [hj] at h3; exact ⟨j, x, r, hj, by simpa using h2, h3, h4⟩
  case text =>
    intro s p q y
    simp only [Node.descendants, List.not_mem_nil, false_iff]
    rintro ⟨r, h1, _, h3, _⟩
    cases r with
    | nil => exact h1 rfl
    | cons j r => simp [Node.at?, Node.xmlChildren] at h3
  case nil => intro p i q y; simp [Node.descendantsList]
  case cons =>
    intro x xs ih1 ih2 p i q y
    have hrec : ∀ (P : Nat → Node → Path → Prop),
        (∃ j z r, (x :: xs)[j]? = some z ∧ P j z r) ↔ (∃ r, P 0 x r) ∨ ∃ j z r, xs[j]? = some z ∧ P (j + 1) z r := by
      intro P
      constructor
      · rintro ⟨j, z, r, h1, h2⟩
        cases j with
        | zero => simp only [List.getElem?_cons_zero, Option.some.injEq] at h1; subst h1; exact .inl ⟨r, h2⟩
        | succ j => exact .inr ⟨j, z, r, by simpa using h1, h2⟩
      · rintro (⟨r, h⟩ | ⟨j, z, r, h1, h2⟩)
        · exact ⟨0, x, r, rfl, h⟩
        · exact ⟨j + 1, z, r, by simpa using h1, h2⟩
    rw [hrec (fun j z r => q = p ++ (i + j) :: r ∧ z.at? r = some y ∧ y.isText = false)]
    have hr : (q, y) ∈ Node.descendantsList p (i + 1) xs ↔
        ∃ j z r, xs[j]? = some z ∧ q = p ++ (i + (j + 1)) :: r ∧ z.at? r = some y ∧ y.isText = false := by
      rw [ih2]
      simp only [Nat.add_assoc, Nat.add_comm 1]
    cases x with
    | elem n as cs =>
      rw [Node.descendantsList, List.mem_cons, List.mem_append, ih1, hr]
      constructor
      · rintro (h | ⟨r, h1, h2, h3, h4⟩ | h)
        · cases h; exact .inl ⟨[], rfl, rfl, rfl⟩
        · exact .inl ⟨r, by simpa using h2, h3, h4⟩
        · exact .inr h
      · rintro (⟨r, h2, h3, h4⟩ | h)
        · cases r with
          | nil => simp only [Node.at?, Option.some.injEq] at h3; subst h3; exact .inl (by rw [h2]; rfl)
          | cons k r => exact .inr (.inl ⟨k :: r, by simp, by simpa using h2, h3, h4⟩)
        · exact .inr (.inr h)
    | text s =>
      rw [Node.descendantsList, hr]
      constructor
      · exact .inr
      · rintro (⟨r, h2, h3, h4⟩ | h)
        · cases r with
          | nil => simp only [Node.at?, Option.some.injEq] at h3; subst h3; cases h4
          | cons k r => simp [Node.at?, Node.xmlChildren] at h3
        · exact h

theorem descendants_order :
    (∀ (x : Node) (p : Path), InDocOrder (x.descendants p)) ∧
    (∀ (xs : List Node) (p : Path) (i : Nat), InDocOrder (Node.descendantsList p i xs)) := by
  apply Node.induct
  case elem => intro n as cs ih p; exact ih p 0
  case text => intro s p; exact .nil
  case nil => intro p i; exact .nil
  case cons =>
    intro x xs ih1 ih2 p i
    have later : ∀ a ∈ Node.descendantsList p (i + 1) xs, ∃ j r, i < j ∧ a.1 = p ++ j :: r := by
      rintro ⟨q, y⟩ h
      obtain ⟨j, z, r, _, h2, _⟩ := (descendants_mem.2 _ _ _ _ _).1 h
      exact ⟨_, r, by omega, h2⟩
    cases x with
    | text s => exact ih2 p (i + 1)
    | elem n as cs =>
      have below : ∀ a ∈ Node.descendants (p ++ [i]) (.elem n as cs), ∃ k r, a.1 = p ++ i :: k :: r := by
        rintro ⟨q, y⟩ h
        obtain ⟨r, h1, h2, _⟩ := (descendants_mem.1 _ _ _ _).1 h
        cases r with
        | nil => exact absurd rfl h1
        | cons k r => exact ⟨k, r, by simpa using h2⟩
      refine List.pairwise_cons.2 ⟨?_, List.pairwise_append.2 ⟨ih1 _, ih2 _ _, ?_⟩⟩
      · intro a ha
        rcases List.mem_append.1 ha with ha | ha
        · obtain ⟨k, r, h⟩ := below a ha
          rw [h]
          have := docLt_child (p ++ [i]) k r
          simpa using this
        · obtain ⟨j, r, h1, h2⟩ := later a ha
          rw [h2]
          exact docLt_sibling p h1 [] r
      · intro a ha b hb
        obtain ⟨k, r, h⟩ := below a ha
        obtain ⟨j, r', h1, h2⟩ := later b hb
        rw [h, h2]
        exact docLt_sibling p h1 _ _

/-- C37: `descendants(e)` yields exactly the elements strictly below `e`, in document order, each once. -/
theorem C37_descendants (e : Node) :
    (∀ q x, (q, x) ∈ e.descendants [] ↔ q ≠ [] ∧ e.at? q = some x ∧ x.isText = false) ∧
    InDocOrder (e.descendants []) ∧ ((e.descendants []).map (·.1)).Nodup := by
  refine ⟨fun q x => ?_, descendants_order.1 e [], ?_⟩
  · rw [descendants_mem.1]
    constructor
    · rintro ⟨r, h1, rfl, h⟩; exact ⟨h1, h⟩
    · rintro ⟨h1, h⟩; exact ⟨q, h1, rfl, h⟩
  · rw [List.Nodup, List.pairwise_map]
    refine List.Pairwise.imp ?_ (descendants_order.1 e [])
    intro a b h he
    rw [he] at h
    exact docLt_irrefl _ h

example : ((Node.elem ['a'] [] [.text ['x'], .elem ['b'] [] [.elem ['c'] [] []], .elem ['b'] [] []]).descendants []).map (·.1)
    = [[1], [1, 0], [2]] := by decide

/-! ### C38 -/

/-- The members of `src` with the property `P`, in order and as often as they occur. -/
def Selects (src : List Node) (P : Node → Prop) (res : List Node) : Prop :=
  res.Sublist src ∧ ∀ x, (P x → res.count x = src.count x) ∧ (¬ P x → x ∉ res)

theorem selects_filter (src : List Node) (P : Node → Prop) (f : Node → Bool) (h : ∀ x, f x = true ↔ P x) :
    Selects src P (src.filter f) := by
  refine ⟨List.filter_sublist, fun x => ⟨fun hx => ?_, fun hx hm => ?_⟩⟩
  · exact List.count_filter ((h x).2 hx)
  · exact hx ((h x).1 (List.mem_filter.1 hm).2)

theorem selects_unique {src : List Node} {P : Node → Prop} {r r' : List Node} (h : Selects src P r)
    (h' : Selects src P r') : r.Perm r' := by
  rw [List.perm_iff_count]
  intro x
  by_cases hx : P x
  · rw [((h.2 x).1 hx), ((h'.2 x).1 hx)]
  · rw [List.count_eq_zero.2 ((h.2 x).2 hx), List.count_eq_zero.2 ((h'.2 x).2 hx)]

/-- What a source consists of: the children of an element, or the members of any other iterable, in their order. -/
inductive ConsistsOf : Source → List Node → Prop
  | children (n : Str) (as : Attrs) (cs : List Node) : ConsistsOf (.element n as cs) cs
  | members (xs : List Node) : ConsistsOf (.items xs) xs

theorem consistsOf_members {src : Source} {xs : List Node} (h : ConsistsOf src xs) : src.members = xs := by
  cases h <;> rfl

theorem consistsOf_exists (src : Source) : ∃ xs, ConsistsOf src xs := by
  cases src with
  | element n as cs => exact ⟨_, .children n as cs⟩
  | items xs => exact ⟨_, .members xs⟩

/-- C38: `select_elements`. -/
theorem C38_select_elements {src : Source} {xs : List Node} (hsrc : ConsistsOf src xs) : Selects xs (fun x => x.isText = false) (selectElements src) := by
  cases consistsOf_members hsrc
  exact selects_filter _ _ _ (by intro x; cases x <;> simp [Node.look, Node.isText])

/-- C38: `select_name`. -/
theorem C38_select_name {src : Source} {xs : List Node} (hsrc : ConsistsOf src xs) (name : Str) :
    Selects xs (fun x => ∃ as cs, x = .elem name as cs) (selectName src name) := by
  cases consistsOf_members hsrc
  rw [selectName, selectElements, List.filter_filter]
  refine selects_filter _ _ _ (fun x => ?_)
  cases x with
  | text s => simp [Node.look]
  | elem n as cs => simp [Node.look, Node.xmlName]

/-- C38: `select_name_pattern`. -/
theorem C38_select_name_pattern {src : Source} {xs : List Node} (hsrc : ConsistsOf src xs) (pat : Str → Bool) :
    Selects xs (fun x => ∃ n as cs, x = .elem n as cs ∧ pat n = true) (selectNamePattern src pat) := by
  cases consistsOf_members hsrc
  rw [selectNamePattern, selectElements, List.filter_filter]
  refine selects_filter _ _ _ (fun x => ?_)
  cases x with
  | text s => simp [Node.look]
  | elem n as cs => simp [Node.look, Node.xmlName]

/-- C38: `select_value`: elements and text. -/
theorem C38_select_value {src : Source} {xs : List Node} (hsrc : ConsistsOf src xs) (val : Str) :
    Selects xs (fun x => x.texts.flatten = val) (selectValue src val) := by
  cases consistsOf_members hsrc
  refine selects_filter _ _ _ (fun x => ?_)
  rw [(C18_string_value x).1]; simp

/-- C38: `select_attribute`. -/
theorem C38_select_attribute {src : Source} {xs : List Node} (hsrc : ConsistsOf src xs) (name : Str) (val : Option Str) :
    Selects xs (fun x => ∃ n as cs v, x = .elem n as cs ∧ as.get name = some v ∧
      (val = none ∨ val = some v)) (selectAttribute src name val) := by
  cases consistsOf_members hsrc
  rw [selectAttribute, selectElements, List.filter_filter]
  refine selects_filter _ _ _ (fun x => ?_)
  cases x with
  | text s => simp [Node.look]
  | elem n as cs =>
    cases hg : as.get name with
    | none => cases val <;> simp [Node.look, checkAttribute, Node.xmlAttributes, hg]
    | some v =>
      cases val with
      | none =>
        simp only [Node.look, checkAttribute, Node.xmlAttributes, hg, Option.isSome_some, Bool.and_true, true_iff]
        exact ⟨n, as, cs, v, rfl, hg, .inl trivial⟩
      | some w =>
        simp only [Node.look, checkAttribute, Node.xmlAttributes, hg, Option.isSome_some, Bool.true_and, Bool.and_true,
          beq_iff_eq, Option.some.injEq]
        constructor
        · rintro rfl; exact ⟨n, as, cs, v, rfl, hg, .inr rfl⟩
        · rintro ⟨_, _, _, w', h1, h2, h3⟩
          cases h1
          rw [hg] at h2; cases h2
          rcases h3 with h3 | h3
          · cases h3
          · exact h3.symm

example : selectName (.items [.elem ['a'] [] [], .text ['x'], .elem ['b'] [] [], .elem ['a'] [] [.text ['y']]]) ['a'] =
    [.elem ['a'] [] [], .elem ['a'] [] [.text ['y']]] := by decide

example : selectAttribute (.element ['a'] [] [.text ['x'], .elem ['b'] [(['i'], ['1'])] [], .elem ['b'] [] []]) ['i']
    (some ['1']) = [.elem ['b'] [(['i'], ['1'])] []] := by decide

/-! ### C39 -/

/-- The first child equal to child number `i`. -/
def FirstEqual (cs : List Node) (i j : Nat) : Prop :=
  j ≤ i ∧ (j = i ∨ ∃ s, cs[i]? = some (.text s) ∧ cs[j]? = some (.text s)) ∧
  ∀ k, k < j → ¬ ∃ s, cs[i]? = some (.text s) ∧ cs[k]? = some (.text s)

theorem sameChild_iff (cs : List Node) (k i : Nat) :
    sameChild cs k i = true ↔ k = i ∨ ∃ s, cs[i]? = some (.text s) ∧ cs[k]? = some (.text s) := by
  simp only [sameChild, Bool.or_eq_true, beq_iff_eq]
  by_cases h : k = i
  · simp [h]
  · simp only [h, false_or]
    cases hk : cs[k]? with
    | none => simp
    | some x =>
      cases hi : cs[i]? with
      | none => cases x <;> simp
      | some y =>
        cases x <;> cases y <;> simp

theorem dropWhile_range (P : Nat → Bool) (m : Nat) (n i : Nat) (hi : P i = true) (hb : ∀ k, k < i → m ≤ k → P k = false)
    (h1 : m ≤ i) (h2 : i < m + n) : (List.range' m n).dropWhile (fun j => !P j) = List.range' i (m + n - i) := by
  induction n generalizing m with
  | zero => omega
  | succ n ih =>
    rw [List.range'_succ]
    by_cases hm : m = i
    · subst hm
      rw [List.dropWhile_cons, hi]
      simp only [Bool.not_true, Bool.false_eq_true, if_false]
      rw [show m + (n + 1) - m = n + 1 from by omega, List.range'_succ]
    · rw [List.dropWhile_cons, hb m (by omega) (Nat.le_refl _)]
      simp only [Bool.not_false, if_true]
      rw [ih (m + 1) (fun k h3 h4 => hb k h3 (by omega)) (by omega) (by omega)]
      congr 1
      omega

/-- What `following_siblings` yields: the siblings after the first one equal to the node. -/
theorem C39_after_first_equal {cs : List Node} {i j : Nat} (hi : i < cs.length) (hj : FirstEqual cs i j) :
    followingSiblings cs i = List.range' (j + 1) (cs.length - (j + 1)) := by
  obtain ⟨h1, h2, h3⟩ := hj
  rw [followingSiblings, List.range_eq_range',
    dropWhile_range (fun k => sameChild cs k i) 0 cs.length j ((sameChild_iff cs j i).2 h2) ?_ (Nat.zero_le _) (by omega)]
  · rw [List.drop_range']
    congr 1 <;> omega
  · intro k hk _
    have := h3 k hk
    cases hs : sameChild cs k i with
    | false => rfl
    | true =>
      rcases (sameChild_iff cs k i).1 hs with h | h
      · omega
      · exact absurd h this

/-- C39, for elements, and for text with no equal text before it: exactly the siblings after the node, in
order.  Missing: text with an equal text before it, for which the claim is false. -/
theorem C39_following_siblings_partial {cs : List Node} {i : Nat} (hi : i < cs.length)
    (hd : ∀ k, k < i → ∀ s, ¬ (cs[i]? = some (.text s) ∧ cs[k]? = some (.text s))) :
    followingSiblings cs i = List.range' (i + 1) (cs.length - (i + 1)) :=
  C39_after_first_equal hi ⟨Nat.le_refl _, .inl rfl, fun k hk ⟨s, h⟩ => hd k hk s h⟩

/-- C39 for elements. -/
theorem C39_element {cs : List Node} {i : Nat} {n as ds} (hi : cs[i]? = some (.elem n as ds)) :
    followingSiblings cs i = List.range' (i + 1) (cs.length - (i + 1)) :=
  C39_following_siblings_partial (List.getElem?_eq_some_iff.1 hi).1 (fun k _ s h => by rw [hi] at h; cases h.1)

/-- The full claim is false: among `x<b/>x` the second text is taken for the first. -/
theorem C39_full_statement_is_false : ¬ ∀ (cs : List Node) (i : Nat), i < cs.length →
    followingSiblings cs i = List.range' (i + 1) (cs.length - (i + 1)) := by
  intro h
  have := h [.text ['x'], .elem ['b'] [] [], .text ['x']] 2 (by decide)
  revert this
  decide

example : followingSiblings [.text ['x'], .elem ['b'] [] [], .text ['x'], .text ['y']] 1 = [2, 3] := by decide

/-! ### C40 -/

theorem selectState_spec :
    (∀ (x : Node) (p : Path) (st : List (Stage Node)), Callable st → (x.selectState p st).2 = false ∧
      (∀ q y, (q, y) ∈ (x.selectState p st).1 ↔ ∃ r, q = p ++ r ∧ x.at? r = some y ∧
        ∃ t, x.trail r = some t ∧ firstAt Node.look st t = true) ∧ InDocOrder (x.selectState p st).1) ∧
    (∀ (xs : List Node) (p : Path) (st : List (Stage Node)) (i : Nat), Callable st →
      (Node.selectStates p st i xs).2 = false ∧
      (∀ q y, (q, y) ∈ (Node.selectStates p st i xs).1 ↔ ∃ j x r, xs[j]? = some x ∧ q = p ++ (i + j) :: r ∧
        x.at? r = some y ∧ ∃ t, x.trail r = some t ∧ firstAt Node.look st (x :: t) = true) ∧
      InDocOrder (Node.selectStates p st i xs).1) := by
  apply Node.induct
  case elem =>
    intro n as cs ih p st hst
    obtain ⟨h1, h2, h3⟩ := ih p st 0 hst
    refine ⟨h1, fun q y => ?_, h3⟩
    rw [Node.selectState, h2]
    constructor
    · rintro ⟨j, x, r, hj, hq, hy, t, ht, hf⟩
      refine ⟨j :: r, by simpa using hq, by simp [Node.at?, Node.xmlChildren, hj, hy], x :: t, ?_, hf⟩
      simp [Node.trail, Node.xmlChildren, hj, ht]
    · rintro ⟨r, hq, hy, t, ht, hf⟩
      cases r with
      | nil =>
        simp only [Node.trail, Option.some.injEq] at ht
        subst ht
        cases st with
        | nil => exact hst.elim
        | cons s st => cases hf
      | cons j r =>
        simp only [Node.at?, Node.trail, Node.xmlChildren] at hy ht
        cases hj : cs[j]? with
        | none => rw [hj] at hy; cases hy
        | some x =>
          rw [hj] at hy ht
          simp only at hy ht
          cases hx : x.trail r with
          | none => rw [hx] at ht; cases ht
          | some t' =>
            rw [hx] at ht
            simp only [Option.map_some, Option.some.injEq] at ht
            subst ht
            exact ⟨j, x, r, hj, by simpa using hq, hy, t', hx, hf⟩
  case text =>
    intro s p st hst
    refine ⟨rfl, fun q y => ?_, .nil⟩
    simp only [Node.selectState, List.not_mem_nil, false_iff]
    rintro ⟨r, hq, hy, t, ht, hf⟩
    cases r with
    | nil =>
      simp only [Node.trail, Option.some.injEq] at ht
      subst ht
      cases st with
      | nil => exact hst.elim
      | cons s st => cases hf
    | cons j r => simp [Node.at?, Node.xmlChildren] at hy
  case nil =>
    intro p st i _
    exact ⟨rfl, fun q y => by simp [Node.selectStates], .nil⟩
  case cons =>
    intro x xs ih1 ih2 p st i hst
    obtain ⟨b1, b2, b3⟩ := ih2 p st (i + 1) hst
    have hrec : ∀ (P : Nat → Node → Path → Prop),
        (∃ j z r, (x :: xs)[j]? = some z ∧ P j z r) ↔ (∃ r, P 0 x r) ∨ ∃ j z r, xs[j]? = some z ∧ P (j + 1) z r := by
      intro P
      constructor
      · rintro ⟨j, z, r, h1, h2⟩
        cases j with
        | zero => simp only [List.getElem?_cons_zero, Option.some.injEq] at h1; subst h1; exact .inl ⟨r, h2⟩
        | succ j => exact .inr ⟨j, z, r, by simpa using h1, h2⟩
      · rintro (⟨r, h⟩ | ⟨j, z, r, h1, h2⟩)
        · exact ⟨0, x, r, rfl, h⟩
        · exact ⟨j + 1, z, r, by simpa using h1, h2⟩
    have hb2 : ∀ q y, (q, y) ∈ (Node.selectStates p st (i + 1) xs).1 ↔ ∃ j z r, xs[j]? = some z ∧
        q = p ++ (i + (j + 1)) :: r ∧ z.at? r = some y ∧ ∃ t, z.trail r = some t ∧ firstAt Node.look st (z :: t) = true := by
      intro q y
      rw [b2]
      simp only [Nat.add_assoc, Nat.add_comm 1]
    have later : ∀ a ∈ (Node.selectStates p st (i + 1) xs).1, ∃ j r, i < j ∧ a.1 = p ++ j :: r := by
      rintro ⟨q, y⟩ h
      obtain ⟨j, z, r, _, h2, _⟩ := (b2 _ _).1 h
      exact ⟨_, r, by omega, h2⟩
    have hfirst : ∀ t, firstAt Node.look st (x :: t) = (match patStep Node.look st x with
        | .to st' => firstAt Node.look st' t
        | _ => false) := by
      intro t
      cases st with
      | nil => exact hst.elim
      | cons s st => simp only [firstAt]; cases patStep Node.look (s :: st) x <;> rfl
    have hgoal : ∀ q y, (∃ j z r, (x :: xs)[j]? = some z ∧ q = p ++ (i + j) :: r ∧ z.at? r = some y ∧
        ∃ t, z.trail r = some t ∧ firstAt Node.look st (z :: t) = true) ↔
        (∃ r, q = p ++ i :: r ∧ x.at? r = some y ∧ ∃ t, x.trail r = some t ∧ firstAt Node.look st (x :: t) = true) ∨
        (q, y) ∈ (Node.selectStates p st (i + 1) xs).1 := by
      intro q y
      rw [hb2]
      exact hrec (fun j z r => q = p ++ (i + j) :: r ∧ z.at? r = some y ∧
        ∃ t, z.trail r = some t ∧ firstAt Node.look st (z :: t) = true)
    rcases callable_step hst x with hx | ⟨st', hx, hst'⟩
    · rw [Node.selectStates, hx]
      refine ⟨b1, fun q y => ?_, b3⟩
      rw [hgoal]
      simp only [hfirst, hx, Bool.false_eq_true, and_false, exists_false, false_or]
    · rcases hst' with rfl | hst'
      · rw [Node.selectStates, hx]
        simp only [thenGen, Bool.false_eq_true, if_false]
        refine ⟨b1, fun q y => ?_, ?_⟩
        · rw [hgoal, List.singleton_append, List.mem_cons]
          refine or_congr ?_ Iff.rfl
          simp only [hfirst, hx, firstAt, List.isEmpty_iff]
          constructor
          · intro h; cases h; exact ⟨[], rfl, rfl, [], rfl, rfl⟩
          · rintro ⟨r, h1, h2, t, h3, h4⟩
            subst h4
            cases r with
            | nil => simp only [Node.at?, Option.some.injEq] at h2; rw [h1, h2]
            | cons k r =>
              simp only [Node.trail] at h3
              cases hk : x.xmlChildren[k]? with
              | none => rw [hk] at h3; cases h3
              | some z =>
                rw [hk] at h3
                cases hz : z.trail r <;> simp [hz] at h3
        · refine List.pairwise_cons.2 ⟨?_, b3⟩
          intro a ha
          obtain ⟨j, r, h1, h2⟩ := later a ha
          rw [h2]
          exact docLt_sibling p h1 [] r
      · obtain ⟨a1, a2, a3⟩ := ih1 (p ++ [i]) st' hst'
        have hne : ∃ s r, st' = s :: r := by
          cases st' with
          | nil => exact hst'.elim
          | cons s r => exact ⟨s, r, rfl⟩
        obtain ⟨s', r', rfl⟩ := hne
        rw [Node.selectStates, hx]
        simp only [thenGen, a1, Bool.false_eq_true, if_false]
        refine ⟨b1, fun q y => ?_, List.pairwise_append.2 ⟨a3, b3, ?_⟩⟩
        · rw [hgoal, List.mem_append, a2]
          refine or_congr ?_ Iff.rfl
          simp only [hfirst, hx]
          constructor
          · rintro ⟨r, h1, h2⟩; exact ⟨r, by simpa using h1, h2⟩
          · rintro ⟨r, h1, h2⟩; exact ⟨r, by simpa using h1, h2⟩
        · rintro ⟨q, y⟩ ha b hb
          obtain ⟨r, h1, _⟩ := (a2 _ _).1 ha
          obtain ⟨j, r', h2, h3⟩ := later b hb
          rw [h1, h3, List.append_assoc]
          exact docLt_sibling p h2 r r'

/-- No tuple stage holds a name (`select_pattern` raises TypeError on those). -/
def NoTupleNames (p : List (Stage Node)) : Prop :=
  ∀ s ∈ p, ∀ subs, s = .oneOf subs → ∀ n, Sub.name n ∉ subs

theorem prepPattern_some {p : List (Stage Node)} (h : NoTupleNames p) : prepPattern p = some p := by
  have : p.any Stage.hasName = false := by
    rw [List.any_eq_false]
    intro s hs
    cases s with
    | name _ | star | dstar => simp [Stage.hasName]
    | oneOf subs =>
      simp only [Stage.hasName, List.any_eq_true, not_exists, not_and]
      intro t ht hc
      cases t with
      | name n => exact h _ hs subs rfl n ht
      | fn f => cases hc
  simp [prepPattern, this]

theorem trail_elements : ∀ (q : Path) (e : Node) (t : List Node) (x : Node), e.trail q = some t → e.at? q = some x →
    x.isText = false → ∀ y ∈ t, ∃ n, y.look = some n := by
  intro q
  induction q with
  | nil => intro e t x h _ _ y hy; simp only [Node.trail, Option.some.injEq] at h; subst h; cases hy
  | cons i q ih =>
    intro e t x ht hx hi y hy
    simp only [Node.trail, Node.at?] at ht hx
    cases hc : e.xmlChildren[i]? with
    | none => rw [hc] at ht; cases ht
    | some z =>
      rw [hc] at ht hx
      simp only at ht hx
      cases hz : z.trail q with
      | none => rw [hz] at ht; cases ht
      | some t' =>
        rw [hz] at ht
        simp only [Option.map_some, Option.some.injEq] at ht
        subst ht
        rcases List.mem_cons.1 hy with rfl | hy
        · cases y with
          | elem n as cs => exact ⟨n, rfl⟩
          | text s =>
            cases q with
            | nil => simp only [Node.at?, Option.some.injEq] at hx; subst hx; cases hi
            | cons j q => simp [Node.at?, Node.xmlChildren] at hx
        · exact ih z t' x hz hx hi y hy

/-- C40, for patterns without a name after '**' other than directly: `select_pattern` raises nothing and
yields, in document order, exactly the outermost descendant elements whose path of nodes below the node
matches.  (Members of tuple stages may also accept text nodes; those are not spoken about.)  Missing: matches
inside other matches, and patterns such as `('**', 'a', 'b')`; for those the claim is false. -/
theorem C40_outermost_matches_partial (e : Node) (p : List (Stage Node)) (hne : p ≠ []) (hs : Safe p)
    (ht : NoTupleNames p) : (selectPattern e p).2 = false ∧ InDocOrder (selectPattern e p).1 ∧
    ∀ q x, x.isText = false → ((q, x) ∈ (selectPattern e p).1 ↔
      e.at? q = some x ∧ ∃ t, e.trail q = some t ∧ Outermost Node.look p t) := by
  have hc := (callable_of_safe _ p (Nat.le_refl _)).1 hne hs
  obtain ⟨h1, h2, h3⟩ := selectState_spec.1 e [] p hc
  rw [selectPattern, prepPattern_some ht]
  refine ⟨h1, h3, fun q x hx => ?_⟩
  rw [h2]
  constructor
  · rintro ⟨r, rfl, ha, t, hr, hf⟩
    exact ⟨ha, t, hr, (firstAt_iff t (trail_elements _ e t x hr ha hx) p hs).1 hf⟩
  · rintro ⟨ha, t, hr, ho⟩
    exact ⟨q, rfl, ha, t, hr, (firstAt_iff t (trail_elements q e t x hr ha hx) p hs).2 ho⟩

/-- C40, for every pattern that does not end in '**': `select_pattern` raises nothing and yields, in document
order, exactly the descendant elements along whose path of nodes the stages can be laid with every '**' ending at
the first element that the next stage accepts. -/
theorem C40_exactly_first_fits (e : Node) (p : List (Stage Node)) (hc : Callable p)
    (ht : NoTupleNames p) : (selectPattern e p).2 = false ∧ InDocOrder (selectPattern e p).1 ∧
    ∀ q x, x.isText = false → ((q, x) ∈ (selectPattern e p).1 ↔
      e.at? q = some x ∧ ∃ t, e.trail q = some t ∧ LaysFirst Node.look p t) := by
  obtain ⟨h1, h2, h3⟩ := selectState_spec.1 e [] p hc
  rw [selectPattern, prepPattern_some ht]
  refine ⟨h1, h3, fun q x hx => ?_⟩
  rw [h2]
  constructor
  · rintro ⟨r, rfl, ha, t, hr, hf⟩
    exact ⟨ha, t, hr, (firstAt_laysFirst t (trail_elements _ e t x hr ha hx) p).1 hf⟩
  · rintro ⟨ha, t, hr, ho⟩
    exact ⟨q, rfl, ha, t, hr, (firstAt_laysFirst t (trail_elements q e t x hr ha hx) p).2 ho⟩

theorem lays_length {p : List (Stage Node)} (hp : NoDstar p) {t : List Node} (h : Lays Node.look p t) :
    t.length = p.length := by
  induction h with
  | nil => rfl
  | one _ _ ih => simp [ih fun s hs => hp s (by simp [hs])]
  | skip => exact absurd rfl (hp .dstar (by simp))
  | more => exact absurd rfl (hp .dstar (by simp))

theorem safe_of_noDstar : ∀ {p : List (Stage Node)}, NoDstar p → Safe p := by
  intro p
  induction p with
  | nil => intro _; trivial
  | cons s p ih =>
    intro h
    have := ih fun t ht => h t (by simp [ht])
    cases s with
    | dstar => exact absurd rfl (h .dstar (by simp))
    | name _ | star | oneOf _ => exact this

/-- C40, for patterns without '**': exactly the descendant elements whose path matches. -/
theorem C40_without_double_star (e : Node) (p : List (Stage Node)) (hne : p ≠ []) (hs : NoDstar p)
    (ht : NoTupleNames p) : (selectPattern e p).2 = false ∧ InDocOrder (selectPattern e p).1 ∧
    ∀ q x, x.isText = false → ((q, x) ∈ (selectPattern e p).1 ↔
      e.at? q = some x ∧ ∃ t, e.trail q = some t ∧ Lays Node.look p t) := by
  obtain ⟨h1, h2, h3⟩ := C40_outermost_matches_partial e p hne (safe_of_noDstar hs) ht
  refine ⟨h1, h2, fun q x hx => ?_⟩
  rw [h3 q x hx]
  constructor
  · rintro ⟨a, t, b, c, _⟩; exact ⟨a, t, b, c⟩
  · rintro ⟨a, t, b, c⟩
    refine ⟨a, t, b, c, fun ys hy hne hl => hne ?_⟩
    exact hy.eq_of_length ((lays_length hs hl).trans (lays_length hs c).symm)

/-- The full claim is false in two ways: `select_pattern` does not look inside a match, and '**' takes the
first element that fits what follows. -/
theorem C40_full_statement_is_false :
    (∃ e q x t, (Node.at? e q = some x ∧ Node.trail e q = some t ∧ Lays Node.look [.dstar, .name ['a']] t) ∧
      x.isText = false ∧ (q, x) ∉ (selectPattern e [.dstar, .name ['a']]).1) ∧
    (∃ e q x t, (Node.at? e q = some x ∧ Node.trail e q = some t ∧
      Outermost Node.look [.dstar, .name ['a'], .name ['b']] t) ∧
      x.isText = false ∧ (q, x) ∉ (selectPattern e [.dstar, .name ['a'], .name ['b']]).1) := by
  constructor
  · refine ⟨.elem ['r'] [] [.elem ['a'] [] [.elem ['a'] [] []]], [0, 0], .elem ['a'] [] [],
      [.elem ['a'] [] [.elem ['a'] [] []], .elem ['a'] [] []], ⟨rfl, rfl, ?_⟩, rfl, by decide⟩
    exact .more (n := ['a']) rfl (.skip (.one rfl .nil))
  · refine ⟨.elem ['r'] [] [.elem ['a'] [] [.elem ['a'] [] [.elem ['b'] [] []]]], [0, 0, 0], .elem ['b'] [] [],
      [.elem ['a'] [] [.elem ['a'] [] [.elem ['b'] [] []]], .elem ['a'] [] [.elem ['b'] [] []], .elem ['b'] [] []],
      ⟨rfl, rfl, .more (n := ['a']) rfl (.skip (.one rfl (.one rfl .nil))), ?_⟩, rfl, by decide⟩
    intro ys hy hne hl
    obtain ⟨u, y, zs, rfl, _, h⟩ := lays_dstar_split (by simp) hl
    obtain ⟨z, w, rfl, hz, hw⟩ := (lays_single_iff (by simp)).1 h
    cases hw
    obtain ⟨v, hv⟩ := hy
    cases u with
    | nil => simp only [List.nil_append, List.cons_append, List.cons.injEq] at hv; rw [hv.2.1] at hz; simp [Stage.Accepts, Node.look] at hz
    | cons a u =>
      cases u with
      | nil => simp only [List.nil_append, List.cons_append, List.cons.injEq] at hv; exact hne (by simp [hv])
      | cons b u =>
        have := congrArg List.length hv
        simp at this
        omega

/-- `('**', 'x')` on `<a><x/><b><x/></b></a>`. -/
example : selectPattern (.elem ['a'] [] [.elem ['x'] [] [], .elem ['b'] [] [.elem ['x'] [] []]]) [.dstar, .name ['x']]
    = ([([0], .elem ['x'] [] []), ([1, 0], .elem ['x'] [] [])], false) := by decide

example : Safe ([.name ['a'], .dstar, .name ['x'], .star, .dstar, .name ['y']] : List (Stage Node)) := by
  simp [Safe, SafeAfter, SafeRest]

/-! ### C41 -/

theorem blank_iff (s : Str) : isBlank s = true ↔ Blank s := by simp [isBlank, Blank]

theorem pretty_bare :
    (∀ (x : Node) (d : Int) (ind : Str), (∀ c ∈ ind, isPySpace c = true) → (x.makePretty d ind).bare = x.bare) ∧
    (∀ (xs : List Node) (d : Int) (ind : Str) (ix : Nat), (∀ c ∈ ind, isPySpace c = true) →
      Node.bareList (Node.prettyLoop d ind ix xs) = Node.bareList xs) := by
  have hT : ∀ (ind : Str) (k : Nat), (∀ c ∈ ind, isPySpace c = true) → Blank ('\n' :: repeatStr ind k) := by
    intro ind k h c hc
    rcases List.mem_cons.1 hc with rfl | hc
    · decide
    · induction k with
      | zero => cases hc
      | succ k ih =>
        rcases List.mem_append.1 hc with hc | hc
        · exact h c hc
        · exact ih (by simp [hc]) hc
  have h2 : ∀ c ∈ "  ".toList, isPySpace c = true := by decide
  apply Node.induct
  case elem => intro n as cs ih d ind h; simp only [Node.makePretty, Node.bare, ih _ ind 0 h]
  case text => intro s d ind _; rfl
  case nil =>
    intro d ind ix h
    rw [Node.prettyLoop]
    split
    · simp [Node.bareList, hT ind _ h]
    · rfl
  case cons =>
    intro x xs ih1 ih2 d ind ix h
    cases x with
    | elem n as cs =>
      rw [Node.prettyLoop]
      have e1 := ih1 d _ h2
      have e2 := fun ix => ih2 d ind ix h
      have e3 : ∀ r, Node.bareList (Node.makePretty d "  ".toList (.elem n as cs) :: r) =
          Node.bare (.elem n as cs) :: Node.bareList r := by
        intro r
        rw [← e1, Node.makePretty, Node.bareList]
      split
      · rw [e3, e2, Node.bareList]
      · rw [Node.bareList, if_pos (hT ind _ h), e3, e2, Node.bareList]
    | text s =>
      rw [Node.prettyLoop]
      by_cases hb : Blank s
      · rw [if_neg (by simp [(blank_iff s).2 hb]), Node.bareList, if_pos (hT ind _ h), ih2 d ind _ h, Node.bareList,
          if_pos hb]
      · have : isBlank s = false := by
          cases hs : isBlank s with
          | false => rfl
          | true => exact absurd ((blank_iff s).1 hs) hb
        rw [if_pos this, Node.bareList, if_neg hb, ih2 d ind _ h, Node.bareList, if_neg hb]

theorem pretty_separated :
    (∀ (x : Node) (d : Int) (ind : Str), (x.makePretty d ind).Separated) ∧
    (∀ (xs : List Node) (d : Int) (ind : Str) (ix : Nat) (b : Bool), (ix % 2 = 1 → b = true) →
      Node.SeparatedList b (Node.prettyLoop d ind ix xs)) := by
  apply Node.induct
  case elem => intro n as cs ih d ind; exact ih _ _ 0 false (by simp)
  case text => intro s d ind; trivial
  case nil =>
    intro d ind ix b h
    rw [Node.prettyLoop]
    split
    · rfl
    · exact h (by omega)
  case cons =>
    intro x xs ih1 ih2 d ind ix b h
    cases x with
    | elem n as cs =>
      rw [Node.prettyLoop]
      have e1 := ih1 d "  ".toList
      rw [Node.makePretty] at e1 ⊢
      split
      · exact ⟨h (by assumption), e1, ih2 d ind _ false (by omega)⟩
      · exact ⟨rfl, e1, ih2 d ind _ false (by omega)⟩
    | text s =>
      rw [Node.prettyLoop]
      split
      · exact ih2 d ind _ true (fun _ => rfl)
      · exact ih2 d ind _ true (fun _ => rfl)

/-- C41: with an indent of white space (the default is two spaces), `make_pretty` changes nothing but
white-space-only text, at any level, and leaves every element with text before and after it. -/
theorem C41_only_white_space_changes (e : Node) (depth : Int) (indent : Str) (hi : Blank indent) :
    (e.makePretty depth indent).bare = e.bare ∧ (e.makePretty depth indent).Separated :=
  ⟨pretty_bare.1 e depth indent hi, pretty_separated.1 e depth indent⟩

/-- White space is Python's: a text that is a single no-break space is replaced. -/
theorem C41_no_break_space_is_lost : (Node.elem ['a'] [] [.text [Char.ofNat 0xA0]]).makePretty 0 "  ".toList =
    .elem ['a'] [] [.text "\n  ".toList] := by decide

/-- An empty element does not stay empty. -/
theorem C41_empty_element_gets_text : (Node.elem ['a'] [] []).makePretty 0 "  ".toList =
    .elem ['a'] [] [.text ['\n']] := by decide

example : (Node.elem ['a'] [] [.elem ['b'] [] [.text ['1']], .text ['x'], .elem ['c'] [] []]).makePretty 0 "  ".toList =
    .elem ['a'] [] [.text "\n  ".toList, .elem ['b'] [] [.text ['1']], .text ['x'],
      .elem ['c'] [] [.text "\n  ".toList], .text ['\n']] := by decide

/-! ### C42 -/

mutual
  /-- Elements at odd places, text at the end. -/
  def Node.Regular : Node → Prop
    | .elem _ _ cs => Node.RegularList 0 cs
    | .text _ => True
  def Node.RegularList (ix : Nat) : List Node → Prop
    | [] => ix % 2 = 1
    | .text _ :: r => Node.RegularList (ix + 1) r
    | .elem n as cs :: r => ix % 2 = 1 ∧ Node.Regular (.elem n as cs) ∧ Node.RegularList (ix + 1) r
end

theorem regular_mod : ∀ (xs : List Node) (ix jx : Nat), ix % 2 = jx % 2 → Node.RegularList ix xs → Node.RegularList jx xs := by
  intro xs
  induction xs with
  | nil => intro ix jx h h'; simp only [Node.RegularList] at h' ⊢; omega
  | cons x xs ih =>
    intro ix jx h h'
    cases x with
    | text s => exact ih _ _ (by omega) h'
    | elem n as cs => exact ⟨by have := h'.1; omega, h'.2.1, ih _ _ (by omega) h'.2.2⟩

theorem pretty_regular :
    (∀ (x : Node) (d : Int) (ind : Str), (x.makePretty d ind).Regular) ∧
    (∀ (xs : List Node) (d : Int) (ind : Str) (ix : Nat), Node.RegularList ix (Node.prettyLoop d ind ix xs)) := by
  apply Node.induct
  case elem => intro n as cs ih d ind; exact ih _ _ 0
  case text => intro s d ind; trivial
  case nil =>
    intro d ind ix
    rw [Node.prettyLoop]
    split
    · simp only [Node.RegularList]; omega
    · simp only [Node.RegularList]; omega
  case cons =>
    intro x xs ih1 ih2 d ind ix
    cases x with
    | elem n as cs =>
      rw [Node.prettyLoop]
      have e1 := ih1 d "  ".toList
      rw [Node.makePretty] at e1 ⊢
      split
      · exact ⟨by assumption, e1, ih2 d ind _⟩
      · exact ⟨by omega, e1, ih2 d ind _⟩
    | text s =>
      rw [Node.prettyLoop]
      split
      · exact ih2 d ind _
      · exact ih2 d ind _

theorem pretty_twice :
    (∀ (x : Node) (d : Int) (ind : Str), x.Regular →
      (x.makePretty d ind).makePretty d ind = x.makePretty d ind) ∧
    (∀ (xs : List Node) (d : Int) (ind : Str) (ix : Nat), Node.RegularList ix xs →
      Node.prettyLoop d ind ix (Node.prettyLoop d ind ix xs) = Node.prettyLoop d ind ix xs) := by
  apply Node.induct
  case elem => intro n as cs ih d ind h; simp only [Node.makePretty]; rw [ih _ _ 0 h]
  case text => intro s d ind _; rfl
  case nil =>
    intro d ind ix h
    have : ¬ ix % 2 = 0 := by simp only [Node.RegularList] at h; omega
    simp [Node.prettyLoop, this]
  case cons =>
    intro x xs ih1 ih2 d ind ix h
    cases x with
    | elem n as cs =>
      have e1 := ih1 d "  ".toList h.2.1
      have e2 := ih2 d ind (ix + 1) h.2.2
      rw [Node.prettyLoop, if_pos h.1]
      rw [Node.makePretty] at e1 ⊢
      rw [Node.prettyLoop, if_pos h.1, e1, e2]
    | text s =>
      have e2 := ih2 d ind (ix + 1) h
      rw [Node.prettyLoop]
      by_cases hb : isBlank s = false
      · rw [if_pos hb, Node.prettyLoop, if_pos hb, e2]
      · rw [if_neg hb, Node.prettyLoop, e2]
        split <;> rfl

/-- C42, the part that holds: a third application changes nothing (any element, depth and indent).  Missing:
the second one does change things, see `C42_not_idempotent`. -/
theorem C42_stable_after_two_partial (e : Node) (depth : Int) (indent : Str) :
    ((e.makePretty depth indent).makePretty depth indent).makePretty depth indent =
      (e.makePretty depth indent).makePretty depth indent :=
  pretty_twice.1 _ _ _ (pretty_regular.1 e depth indent)

/-- Already for `<a><b>1</b></a>` the second application moves the end tag of `a`. -/
theorem C42_not_idempotent : ¬ ∀ (e : Node) (depth : Int) (indent : Str),
    (e.makePretty depth indent).makePretty depth indent = e.makePretty depth indent := by
  intro h
  have := h (.elem ['a'] [] [.elem ['b'] [] [.text ['1']]]) 0 "  ".toList
  revert this
  decide

theorem pretty_uniform :
    (∀ (x : Node) (d : Int), (x.makePretty d "  ".toList).UniformAt d "  ".toList) ∧
    (∀ (xs : List Node) (d : Int) (ix : Nat), Node.UniformList (d + 1) "  ".toList
      (Node.prettyLoop (d + 1) "  ".toList ix xs)) := by
  apply Node.induct
  case elem => intro n as cs ih d; exact ih d 0
  case text => intro s d; trivial
  case nil =>
    intro d ix
    rw [Node.prettyLoop]
    split
    · exact ⟨fun _ => .inr ⟨rfl, repeatStr_eq _ _ ▸ rfl⟩, trivial⟩
    · trivial
  case cons =>
    intro x xs ih1 ih2 d ix
    cases x with
    | elem n as cs =>
      rw [Node.prettyLoop]
      have e1 := ih1 (d + 1)
      rw [Node.makePretty] at e1 ⊢
      split
      · exact ⟨e1, ih2 d _⟩
      · exact ⟨fun _ => .inl (by rw [repeatStr_eq]), e1, ih2 d _⟩
    | text s =>
      rw [Node.prettyLoop]
      split
      · exact ⟨fun hb => absurd ((blank_iff s).2 hb) (by simp_all), ih2 d _⟩
      · exact ⟨fun _ => .inl (by rw [repeatStr_eq]), ih2 d _⟩

/-- C42, the part that holds: with the default indent every white-space-only text is a newline and one indent
for each level, or one less if it is the last child.  Missing: other indents, see
`C42_indent_not_uniform`. -/
theorem C42_default_indent_partial (e : Node) (depth : Int) :
    (e.makePretty depth "  ".toList).UniformAt depth "  ".toList :=
  pretty_uniform.1 e depth

/-- The given indent is used for the children of the element only: inside them it makes no difference. -/
theorem C42_nested_indent_ignored (e : Node) (depth : Int) (indent indent' : Str) :
    (e.makePretty depth indent).xmlChildren.filter (fun x => x.look.isSome) =
      (e.makePretty depth indent').xmlChildren.filter (fun x => x.look.isSome) := by
  have H : ∀ (xs : List Node) (d : Int) (ix : Nat),
      (Node.prettyLoop d indent ix xs).filter (fun x => x.look.isSome) =
        (Node.prettyLoop d indent' ix xs).filter (fun x => x.look.isSome) := by
    intro xs
    induction xs with
    | nil => intro d ix; simp only [Node.prettyLoop]; split <;> simp [Node.look]
    | cons x xs ih =>
      intro d ix
      cases x with
      | elem n as cs =>
        simp only [Node.prettyLoop, Node.makePretty]
        split
        · rw [List.filter_cons_of_pos rfl, List.filter_cons_of_pos rfl, ih]
        · rw [List.filter_cons_of_neg (by simp [Node.look]), List.filter_cons_of_pos rfl,
            List.filter_cons_of_neg (by simp [Node.look]), List.filter_cons_of_pos rfl, ih]
      | text s =>
        simp only [Node.prettyLoop]
        split
        · rw [List.filter_cons_of_neg (by simp [Node.look]), List.filter_cons_of_neg (by simp [Node.look]), ih]
        · rw [List.filter_cons_of_neg (by simp [Node.look]), List.filter_cons_of_neg (by simp [Node.look]), ih]
  cases e with
  | text s => rfl
  | elem n as cs => exact H cs (depth + 1) 0

/-- With a tab as indent `<a><b><c/></b></a>` is indented with a tab outside and spaces inside. -/
theorem C42_indent_not_uniform :
    ¬ ((Node.elem ['a'] [] [.elem ['b'] [] [.elem ['c'] [] []]]).makePretty 0 ['\t']).UniformAt 0 ['\t'] := by
  have : (Node.elem ['a'] [] [.elem ['b'] [] [.elem ['c'] [] []]]).makePretty 0 ['\t'] =
      .elem ['a'] [] [.text "\n\t".toList, .elem ['b'] [] [.text "\n    ".toList, .elem ['c'] [] [.text "\n    ".toList],
        .text "\n  ".toList], .text ['\n']] := by decide
  rw [this]
  intro h
  have h1 := h.2.1.1 (by unfold Blank; decide)
  revert h1
  decide

/-! ### C40, patterns that raise -/


/-- C40, errors: a name inside a tuple, as in `('a', ('b', 'c'))`, always raises TypeError, before anything is yielded. -/
theorem C40_names_in_tuples_raise (e : Node) (p : List (Stage Node)) (subs : List (Sub Node)) (n : Str)
    (hs : .oneOf subs ∈ p) (hn : .name n ∈ subs) : selectPattern e p = ([], true) := by
  have : prepPattern p = none := by
    rw [prepPattern, if_pos]
    rw [List.any_eq_true]
    exact ⟨_, hs, List.any_eq_true.2 ⟨_, hn, rfl⟩⟩
  rw [selectPattern, this]

/-- C40, errors: the empty pattern raises TypeError if the node has children, and yields nothing otherwise. -/
theorem C40_empty_pattern (e : Node) : selectPattern e [] = ([], !e.xmlChildren.isEmpty) := by
  have h : prepPattern [] = some [] := rfl
  rw [selectPattern, h]
  cases e with
  | text s => simp [Node.selectState, Node.xmlChildren]
  | elem m as cs => cases cs <;> simp [Node.selectState, Node.selectStates, patStep, Node.xmlChildren]

theorem patStep_trailing (p : List (Stage Node)) (hp : Callable p) (x : Node) :
    patStep Node.look (p ++ [.dstar]) x = match patStep Node.look p x with
      | .none => .none
      | .to s => .to (s ++ [.dstar])
      | .typeError => .typeError := by
  induction p with
  | nil => cases hp
  | cons s p ih =>
    cases s with
    | name n => simp only [List.cons_append, patStep]; split <;> rfl
    | star => simp only [List.cons_append, patStep]; split <;> rfl
    | oneOf fs => simp only [List.cons_append, patStep]; split <;> rfl
    | dstar =>
      have hc : Callable p := by
        cases p with
        | nil => exact (hp rfl).elim
        | cons => exact hp
      simp only [List.cons_append, patStep, ih hc]
      split
      · cases patStep Node.look p x <;> rfl
      · rfl

/-- The node has an element among its children. -/
def Node.hasElement (x : Node) : Prop := ∃ y ∈ x.xmlChildren, y.isText = false

theorem lone_dstar : ∀ (cs : List Node) (p : Path) (i : Nat),
    (Node.selectStates p [.dstar] i cs).1 = [] ∧
    ((Node.selectStates p [.dstar] i cs).2 = true ↔ ∃ y ∈ cs, y.isText = false) := by
  intro cs
  induction cs with
  | nil => intro p i; simp [Node.selectStates]
  | cons x r ih =>
    intro p i
    obtain ⟨h1, h2⟩ := ih p (i + 1)
    cases x with
    | text s =>
      simp [Node.selectStates, patStep, Node.look, thenGen, Node.selectState, h1, h2, Node.isText]
    | elem m as cs => simp [Node.selectStates, patStep, Node.look, Node.isText]

theorem lone_dstar_node (x : Node) (p : Path) :
    (x.selectState p [.dstar]).1 = [] ∧ ((x.selectState p [.dstar]).2 = true ↔ x.hasElement) := by
  cases x with
  | text s => simp [Node.selectState, Node.hasElement, Node.xmlChildren]
  | elem m as cs => exact lone_dstar cs p 0

theorem callable_to {st : List (Stage Node)} (hst : Callable st) {x : Node} {s : List (Stage Node)}
    (h : patStep Node.look st x = .to s) : s = [] ∨ Callable s := by
  induction st generalizing s with
  | nil => cases hst
  | cons t r ih =>
    have hr : r = [] ∨ Callable r := by
      cases r with
      | nil => exact .inl rfl
      | cons => exact .inr hst
    cases t with
    | name n => simp only [patStep] at h; split at h <;> cases h; exact hr
    | star => simp only [patStep] at h; split at h <;> cases h; exact hr
    | oneOf fs => simp only [patStep] at h; split at h <;> cases h; exact hr
    | dstar =>
      have hc : Callable r := by
        rcases hr with rfl | hr
        · exact (hst rfl).elim
        · exact hr
      simp only [patStep] at h
      split at h
      · cases hp : patStep Node.look r x with
        | none => rw [hp] at h; cases h; exact .inr hst
        | to s' => rw [hp] at h; cases h; exact ih hc hp
        | typeError => rw [hp] at h; cases h
      · cases h; exact .inr hst

theorem trailing_dstar :
    (∀ (x : Node) (p : Path) (st : List (Stage Node)), Callable st →
      (x.selectState p (st ++ [.dstar])).1 = [] ∧ ((x.selectState p (st ++ [.dstar])).2 = true ↔
        ∃ q y, (q, y) ∈ (x.selectState p st).1 ∧ y.hasElement)) ∧
    (∀ (xs : List Node) (p : Path) (st : List (Stage Node)) (i : Nat), Callable st →
      (Node.selectStates p (st ++ [.dstar]) i xs).1 = [] ∧ ((Node.selectStates p (st ++ [.dstar]) i xs).2 = true ↔
        ∃ q y, (q, y) ∈ (Node.selectStates p st i xs).1 ∧ y.hasElement)) := by
  apply Node.induct
  case elem =>
    intro n as cs ih p st hst
    simp only [Node.selectState]
    exact ih p st 0 hst
  case text => intro s p st _; simp [Node.selectState]
  case nil => intro p st i _; simp [Node.selectStates]
  case cons =>
    intro x xs ihx ihxs p st i hst
    obtain ⟨r1, r2⟩ := ihxs p st (i + 1) hst
    have hno : patStep Node.look st x ≠ .typeError := by
      intro ht
      have := (selectState_spec.2 [x] p st i hst).1
      simp only [Node.selectStates, ht] at this
      cases this
    simp only [Node.selectStates, patStep_trailing st hst]
    cases hp : patStep Node.look st x with
    | typeError => exact (hno hp).elim
    | none => exact ⟨r1, r2⟩
    | to s =>
      rcases callable_to hst hp with rfl | hs
      · obtain ⟨a1, a2⟩ := lone_dstar_node x (p ++ [i])
        simp only [List.nil_append]
        refine ⟨?_, ?_⟩
        · rw [thenGen]; split
          · exact a1
          · simp [a1, r1]
        · simp only [thenGen]
          by_cases hx : (x.selectState (p ++ [i]) [.dstar]).2 = true
          · rw [if_pos hx]
            simp only [hx, true_iff]
            exact ⟨p ++ [i], x, by simp, a2.1 hx⟩
          · rw [if_neg hx]
            simp only [r2]
            constructor
            · rintro ⟨q, y, h1, h2⟩; exact ⟨q, y, by simp [h1], h2⟩
            · rintro ⟨q, y, h1, h2⟩
              simp only [Bool.false_eq_true, if_false, List.cons_append, List.nil_append, List.mem_cons] at h1
              rcases h1 with h1 | h1
              · cases h1; exact (hx (a2.2 h2)).elim
              · exact ⟨q, y, h1, h2⟩
      · obtain ⟨a1, a2⟩ := ihx (p ++ [i]) s hs
        have b1 := (selectState_spec.1 x (p ++ [i]) s hs).1
        cases s with
        | nil => cases hs
        | cons s0 s =>
          simp only [List.cons_append] at a1 a2 ⊢
          refine ⟨?_, ?_⟩
          · rw [thenGen]; split
            · exact a1
            · simp [a1, r1]
          · simp only [thenGen, b1]
            by_cases hx : (x.selectState (p ++ [i]) (s0 :: (s ++ [.dstar]))).2 = true
            · rw [if_pos hx]
              simp only [hx, true_iff]
              obtain ⟨q, y, h1, h2⟩ := a2.1 hx
              exact ⟨q, y, by simp [h1], h2⟩
            · rw [if_neg hx]
              simp only [r2]
              constructor
              · rintro ⟨q, y, h1, h2⟩; exact ⟨q, y, by simp [h1], h2⟩
              · rintro ⟨q, y, h1, h2⟩
                simp only [Bool.false_eq_true, if_false, List.mem_append] at h1
                rcases h1 with h1 | h1
                · exact (hx (a2.2 ⟨q, y, h1, h2⟩)).elim
                · exact ⟨q, y, h1, h2⟩

/-- C40, errors: a pattern that ends in '**', after stages as in `C40_exactly_first_fits`, never yields anything, and
raises TypeError exactly if one of the nodes those stages select has an element child. -/
theorem C40_trailing_double_star (e : Node) (p : List (Stage Node)) (hc : Callable p) (ht : NoTupleNames p) :
    (selectPattern e (p ++ [.dstar])).1 = [] ∧
    ((selectPattern e (p ++ [.dstar])).2 = true ↔ ∃ q x, (q, x) ∈ (selectPattern e p).1 ∧ x.hasElement) := by
  have ht' : NoTupleNames (p ++ [.dstar]) := by
    intro s hs subs h n
    rcases List.mem_append.1 hs with hs | hs
    · exact ht s hs subs h n
    · simp only [List.mem_singleton] at hs; rw [hs] at h; cases h
  rw [selectPattern, selectPattern, prepPattern_some ht, prepPattern_some ht']
  exact trailing_dstar.1 e [] p hc

/-- C40, errors: the same for '**' alone, which speaks about the node itself. -/
theorem C40_lone_double_star (e : Node) :
    (selectPattern e [.dstar]).1 = [] ∧ ((selectPattern e [.dstar]).2 = true ↔ e.hasElement) :=
  lone_dstar_node e []

/-- `select_pattern(e, ('a', '**'))` raises for `<r><a><b/></a></r>` and not for `<r><a>t</a></r>`. -/
example : (selectPattern (.elem ['r'] [] [.elem ['a'] [] [.elem ['b'] [] []]]) [.name ['a'], .dstar]).2 = true ∧
    (selectPattern (.elem ['r'] [] [.elem ['a'] [] [.text ['t']]]) [.name ['a'], .dstar]).2 = false ∧
    Callable [(.name ['a'] : Stage Node)] := ⟨by decide, by decide, by simp [Callable]⟩

end Amara
