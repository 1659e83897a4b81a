import Verif.Spec.Frames
import Verif.Props.TreeUtil
import Verif.Props.Tree
/-
C129, C130: the limit on nested calls.
-/
namespace Amara

/-! ### C129: never a wrong result -/

theorem encodeK_sound (c : Needs) (ind : Str) :
    (∀ (x : Node) (d k : Nat) (s : Str), x.encodeK c ind d k = some s → s = x.encodeI ind d) ∧
    (∀ (xs : List Node) (d k : Nat) (s : Str), Node.encodeChildrenK c ind d k xs = some s → s = Node.encodeChildren ind d xs) := by
  apply Node.induct
  case elem =>
    intro n as cs ih d k s h
    cases k with
    | zero => cases h
    | succ k =>
      rw [Node.encodeK] at h
      split at h
      · cases h
      · obtain ⟨t, ht, rfl⟩ := Option.map_eq_some_iff.1 h
        rw [ih d k t ht, Node.encodeI]
  case text =>
    intro s d k t h
    cases k with
    | zero => cases h
    | succ k => rw [Node.encodeK] at h; cases h; rfl
  case nil => intro d k s h; cases h; rfl
  case cons =>
    intro x xs ih1 ih2 d k s h
    cases x with
    | elem n as cs =>
      rw [Node.encodeChildrenK] at h
      split at h
      · cases h
      · rename_i a ha
        obtain ⟨t, ht, rfl⟩ := Option.map_eq_some_iff.1 h
        rw [ih1 (d + 1) k a ha, ih2 d k t ht, Node.encodeChildren]
    | text u =>
      rw [Node.encodeChildrenK] at h
      split at h
      · cases h
      · obtain ⟨t, ht, rfl⟩ := Option.map_eq_some_iff.1 h
        rw [ih2 d k t ht, Node.encodeChildren]

theorem encodeK_some (c : Needs) (ind : Str) (m : Nat) (hc : c.Within m) :
    (∀ (x : Node) (d k : Nat), 0 < k → x.height + m ≤ k → (x.encodeK c ind d k).isSome = true) ∧
    (∀ (xs : List Node) (d k : Nat), Node.heights xs + m ≤ k →
      (Node.encodeChildrenK c ind d k xs).isSome = true) := by
  apply Node.induct
  case elem =>
    intro n as cs ih d k h0 h
    rw [Node.height] at h
    obtain ⟨k, rfl⟩ : ∃ k', k = k' + 1 := ⟨k - 1, by omega⟩
    rw [Node.encodeK, if_neg (by have := hc.1; omega), Option.isSome_map]
    exact ih d k (by omega)
  case text =>
    intro s d k h0 h
    obtain ⟨k, rfl⟩ : ∃ k', k = k' + 1 := ⟨k - 1, by omega⟩
    rfl
  case nil => intro d k h; rfl
  case cons =>
    intro x xs ih1 ih2 d k h
    rw [Node.heights] at h
    cases x with
    | elem n as cs =>
      have h1 := ih1 (d + 1) k (by rw [Node.height] at h; omega) (by omega)
      rw [Node.encodeChildrenK]
      obtain ⟨s, hs⟩ := Option.isSome_iff_exists.1 h1
      rw [hs]
      simp only [Option.isSome_map]
      exact ih2 d k (by omega)
    | text u =>
      rw [Node.encodeChildrenK, if_neg (by have := hc.2.1; omega), Option.isSome_map]
      exact ih2 d k (by omega)

theorem encodeK_none (c : Needs) (ind : Str) :
    (∀ (x : Node) (d k : Nat), k < x.height → x.encodeK c ind d k = none) ∧
    (∀ (xs : List Node) (d k : Nat), k < Node.heights xs → Node.encodeChildrenK c ind d k xs = none) := by
  apply Node.induct
  case elem =>
    intro n as cs ih d k h
    cases k with
    | zero => rfl
    | succ k =>
      rw [Node.height] at h
      rw [Node.encodeK]
      split
      · rfl
      · rw [ih d k (by omega)]; rfl
  case text => intro s d k h; rw [Node.height] at h; omega
  case nil => intro d k h; rw [Node.heights] at h; omega
  case cons =>
    intro x xs ih1 ih2 d k h
    rw [Node.heights] at h
    cases x with
    | elem n as cs =>
      rw [Node.encodeChildrenK]
      by_cases h1 : k < (Node.elem n as cs).height
      · rw [ih1 (d + 1) k h1]
      · rw [ih2 d k (by omega)]
        split <;> rfl
    | text u =>
      rw [Node.encodeChildrenK]
      split
      · rfl
      · rw [ih2 d k (by rw [Node.height] at h; omega)]; rfl

/-- C129: `xml_encode` under a limit on nested calls never gives a wrong text: it raises or gives what it gives without a
limit; it succeeds if the limit exceeds the depth by what the functions used need, and raises if the limit is
less than the depth. -/
theorem C129_encode_partial (c : Needs) (m : Nat) (hc : c.Within m) (ind : Str) (d k : Nat) (e : Node) (he : e.isText = false) :
    (e.encodeK c ind d k = none ∨ e.encodeK c ind d k = some (e.encodeI ind d)) ∧
    (e.height + m ≤ k → e.encodeK c ind d k = some (e.encodeI ind d)) ∧
    (k < e.height → e.encodeK c ind d k = none) := by
  have h1 : e.encodeK c ind d k = none ∨ e.encodeK c ind d k = some (e.encodeI ind d) := by
    cases h : e.encodeK c ind d k with
    | none => exact .inl rfl
    | some s => rw [(encodeK_sound c ind).1 e d k s h]; exact .inr rfl
  refine ⟨h1, fun h => ?_, (encodeK_none c ind).1 e d k⟩
  have hk : 0 < k := by
    cases e with
    | elem n as cs => rw [Node.height] at h; omega
    | text s => cases he
  rcases h1 with h2 | h2
  · have := (encodeK_some c ind m hc).1 e d k hk h
    rw [h2] at this
    cases this
  · exact h2

theorem xmlValueK_sound :
    (∀ (x : Node) (k : Nat) (s : Str), x.xmlValueK k = some s → s = x.xmlValue) ∧
    (∀ (xs : List Node) (k : Nat) (s : Str), Node.xmlValuesK k xs = some s → s = Node.xmlValues xs) := by
  apply Node.induct
  case elem =>
    intro n as cs ih k s h
    cases k with
    | zero => cases h
    | succ k => exact ih k s h
  case text =>
    intro s k t h
    cases k with
    | zero => cases h
    | succ k => rw [Node.xmlValueK] at h; cases h; rfl
  case nil => intro k s h; rw [Node.xmlValuesK] at h; cases h; rfl
  case cons =>
    intro x xs ih1 ih2 k s h
    cases k with
    | zero => rw [Node.xmlValuesK] at h; cases h
    | succ k =>
      rw [Node.xmlValuesK] at h
      split at h
      · cases h
      · rename_i a ha
        obtain ⟨t, ht, rfl⟩ := Option.map_eq_some_iff.1 h
        rw [ih1 k a ha, ih2 (k + 1) t ht, Node.xmlValues]

theorem xmlValueK_some :
    (∀ (x : Node) (k : Nat), 2 * x.height + 1 ≤ k → (x.xmlValueK k).isSome = true) ∧
    (∀ (xs : List Node) (k : Nat), (xs = [] ∨ 2 * Node.heights xs + 2 ≤ k) → (Node.xmlValuesK k xs).isSome = true) := by
  apply Node.induct
  case elem =>
    intro n as cs ih k h
    rw [Node.height] at h
    obtain ⟨k, rfl⟩ : ∃ k', k = k' + 1 := ⟨k - 1, by omega⟩
    exact ih k (.inr (by omega))
  case text =>
    intro s k h
    obtain ⟨k, rfl⟩ : ∃ k', k = k' + 1 := ⟨k - 1, by omega⟩
    rfl
  case nil => intro k h; rw [Node.xmlValuesK]; rfl
  case cons =>
    intro x xs ih1 ih2 k h
    have h : 2 * Node.heights (x :: xs) + 2 ≤ k := by
      rcases h with h | h
      · cases h
      · exact h
    rw [Node.heights] at h
    obtain ⟨k, rfl⟩ : ∃ k', k = k' + 1 := ⟨k - 1, by omega⟩
    have h1 := ih1 k (by omega)
    rw [Node.xmlValuesK]
    obtain ⟨s, hs⟩ := Option.isSome_iff_exists.1 h1
    simp only [hs, Option.isSome_map]
    exact ih2 (k + 1) (.inr (by omega))

theorem xmlValueK_none :
    (∀ (x : Node) (k : Nat), 0 < x.height → k < 2 * x.height - 1 → x.xmlValueK k = none) ∧
    (∀ (xs : List Node) (k : Nat), 0 < Node.heights xs → k < 2 * Node.heights xs → Node.xmlValuesK k xs = none) := by
  apply Node.induct
  case elem =>
    intro n as cs ih k h0 h
    cases k with
    | zero => rfl
    | succ k =>
      rw [Node.height] at h
      exact ih k (by omega) (by omega)
  case text => intro s k h; rw [Node.height] at h; omega
  case nil => intro k h; rw [Node.heights] at h; omega
  case cons =>
    intro x xs ih1 ih2 k h0 h
    rw [Node.heights] at h h0
    cases k with
    | zero => rw [Node.xmlValuesK]
    | succ k =>
      rw [Node.xmlValuesK]
      by_cases h1 : 0 < x.height ∧ k < 2 * x.height - 1
      · rw [ih1 k h1.1 h1.2]
      · rw [ih2 (k + 1) (by omega) (by omega)]
        split <;> rfl

/-- C129: the same for `xml_value`, which needs two nested calls for each level. -/
theorem C129_xml_value_partial (k : Nat) (e : Node) :
    (e.xmlValueK k = none ∨ e.xmlValueK k = some e.xmlValue) ∧
    (2 * e.height + 1 ≤ k → e.xmlValueK k = some e.xmlValue) ∧
    (k < 2 * e.height - 1 → e.xmlValueK k = none) := by
  have h1 : e.xmlValueK k = none ∨ e.xmlValueK k = some e.xmlValue := by
    cases h : e.xmlValueK k with
    | none => exact .inl rfl
    | some s => rw [xmlValueK_sound.1 e k s h]; exact .inr rfl
  refine ⟨h1, fun h => ?_, fun h => xmlValueK_none.1 e k ?_ h⟩
  · rcases h1 with h2 | h2
    · have := xmlValueK_some.1 e k h
      rw [h2] at this
      cases this
    · exact h2
  · omega

theorem strvalK_sound (c : Needs) :
    (∀ (x : Node) (k : Nat) (s : List Str), x.strvalK c k = some s → s = x.strvalAcc) ∧
    (∀ (xs : List Node) (k : Nat) (s : List Str), Node.strvalsK c k xs = some s → s = Node.strvalAccs xs) := by
  apply Node.induct
  case elem =>
    intro n as cs ih k s h
    cases k with
    | zero => cases h
    | succ k => exact ih k s h
  case text =>
    intro s k t h
    cases k with
    | zero => cases h
    | succ k =>
      rw [Node.strvalK] at h
      split at h
      · cases h
      · cases h; rfl
  case nil => intro k s h; cases h; rfl
  case cons =>
    intro x xs ih1 ih2 k s h
    cases x with
    | elem n as cs =>
      rw [Node.strvalsK] at h
      split at h
      · cases h
      · rename_i a ha
        obtain ⟨t, ht, rfl⟩ := Option.map_eq_some_iff.1 h
        rw [ih1 k a ha, ih2 k t ht, Node.strvalAccs]
    | text u =>
      rw [Node.strvalsK] at h
      split at h
      · cases h
      · obtain ⟨t, ht, rfl⟩ := Option.map_eq_some_iff.1 h
        rw [ih2 k t ht, Node.strvalAccs]

theorem strvalK_some (c : Needs) (m : Nat) (hc : c.Within m) :
    (∀ (x : Node) (k : Nat), x.height + m + (if x.isText then 1 else 0) ≤ k → (x.strvalK c k).isSome = true) ∧
    (∀ (xs : List Node) (k : Nat), Node.heights xs + m ≤ k → (Node.strvalsK c k xs).isSome = true) := by
  apply Node.induct
  case elem =>
    intro n as cs ih k h
    rw [Node.height] at h
    obtain ⟨k, rfl⟩ : ∃ k', k = k' + 1 := ⟨k - 1, by omega⟩
    exact ih k (by simp [Node.isText] at h; omega)
  case text =>
    intro s k h
    simp only [Node.height, Node.isText, if_true] at h
    obtain ⟨k, rfl⟩ : ∃ k', k = k' + 1 := ⟨k - 1, by omega⟩
    rw [Node.strvalK, if_neg (by have := hc.2.2.1; omega)]
    rfl
  case nil => intro k h; rfl
  case cons =>
    intro x xs ih1 ih2 k h
    rw [Node.heights] at h
    cases x with
    | elem n as cs =>
      have h1 := ih1 k (by simp only [Node.isText, Bool.false_eq_true, if_false]; omega)
      rw [Node.strvalsK]
      obtain ⟨s, hs⟩ := Option.isSome_iff_exists.1 h1
      rw [hs]
      simp only [Option.isSome_map]
      exact ih2 k (by omega)
    | text u =>
      rw [Node.strvalsK, if_neg (by have := hc.2.2.1; omega), Option.isSome_map]
      exact ih2 k (by omega)

theorem strvalK_none (c : Needs) :
    (∀ (x : Node) (k : Nat), k < x.height → x.strvalK c k = none) ∧
    (∀ (xs : List Node) (k : Nat), k < Node.heights xs → Node.strvalsK c k xs = none) := by
  apply Node.induct
  case elem =>
    intro n as cs ih k h
    cases k with
    | zero => rfl
    | succ k =>
      rw [Node.height] at h
      exact ih k (by omega)
  case text => intro s k h; rw [Node.height] at h; omega
  case nil => intro k h; rw [Node.heights] at h; omega
  case cons =>
    intro x xs ih1 ih2 k h
    rw [Node.heights] at h
    cases x with
    | elem n as cs =>
      rw [Node.strvalsK]
      by_cases h1 : k < (Node.elem n as cs).height
      · rw [ih1 k h1]
      · rw [ih2 k (by omega)]
        split <;> rfl
    | text u =>
      rw [Node.strvalsK]
      split
      · rfl
      · rw [ih2 k (by rw [Node.height] at h; omega)]; rfl

/-- C129: the same for `strval`. -/
theorem C129_strval_partial (c : Needs) (m : Nat) (hc : c.Within m) (k : Nat) (e : Node) (he : e.isText = false) :
    (e.strvalK c k = none ∨ (e.strvalK c k).map List.flatten = some e.strval) ∧
    (e.height + m ≤ k → (e.strvalK c k).map List.flatten = some e.strval) ∧
    (k < e.height → e.strvalK c k = none) := by
  cases e with
  | text s => cases he
  | elem n as cs =>
    have h1 : (Node.elem n as cs).strvalK c k = none ∨
        ((Node.elem n as cs).strvalK c k).map List.flatten = some (Node.elem n as cs).strval := by
      cases h : (Node.elem n as cs).strvalK c k with
      | none => exact .inl rfl
      | some s => rw [(strvalK_sound c).1 _ k s h]; exact .inr rfl
    refine ⟨h1, fun h => ?_, (strvalK_none c).1 _ k⟩
    rcases h1 with h2 | h2
    · have := (strvalK_some c m hc).1 (.elem n as cs) k (by simpa [Node.isText] using h)
      rw [h2] at this
      cases this
    · exact h2

theorem descendantsK_sound :
    (∀ (x : Node) (p : Path) (k : Nat), ((x.descendantsK p k).2 = false → (x.descendantsK p k).1 = x.descendants p) ∧
      (x.descendantsK p k).1 <+: x.descendants p) ∧
    (∀ (xs : List Node) (p : Path) (k i : Nat),
      ((Node.descendantsListK p k i xs).2 = false → (Node.descendantsListK p k i xs).1 = Node.descendantsList p i xs) ∧
      (Node.descendantsListK p k i xs).1 <+: Node.descendantsList p i xs) := by
  apply Node.induct
  case elem =>
    intro n as cs ih p k
    cases k with
    | zero => exact ⟨fun h => (by cases h), List.nil_prefix⟩
    | succ k => exact ih p k 0
  case text =>
    intro s p k
    cases k with
    | zero => exact ⟨fun h => (by cases h), List.nil_prefix⟩
    | succ k => exact ⟨fun _ => rfl, List.nil_prefix⟩
  case nil => intro p k i; exact ⟨fun _ => rfl, List.nil_prefix⟩
  case cons =>
    intro x xs ih1 ih2 p k i
    cases x with
    | elem n as cs =>
      have h1 := ih1 (p ++ [i]) k
      have h2 := ih2 p k (i + 1)
      rw [Node.descendantsListK, Node.descendantsList]
      split
      · rename_i ys hy
        rw [hy] at h1
        refine ⟨fun h => (by cases h), ?_⟩
        obtain ⟨t, ht⟩ := h1.2
        exact ⟨t ++ Node.descendantsList p (i + 1) xs, by simp [← ht]⟩
      · rename_i ys hy
        rw [hy] at h1
        have h3 := h1.1 rfl
        simp only at h3
        rw [h3]
        refine ⟨fun h => by rw [h2.1 h], ?_⟩
        obtain ⟨t, ht⟩ := h2.2
        exact ⟨t, by simp [← ht]⟩
    | text u =>
      rw [Node.descendantsListK, Node.descendantsList]
      exact ih2 p k (i + 1)

theorem descendantsK_ends :
    (∀ (x : Node) (p : Path) (k : Nat), 0 < k → ((x.descendantsK p k).2 = true ↔ k < x.height)) ∧
    (∀ (xs : List Node) (p : Path) (k i : Nat), (Node.descendantsListK p k i xs).2 = true ↔ k < Node.heights xs) := by
  apply Node.induct
  case elem =>
    intro n as cs ih p k h0
    obtain ⟨k, rfl⟩ : ∃ k', k = k' + 1 := ⟨k - 1, by omega⟩
    rw [Node.descendantsK, Node.height, ih p k 0]
    omega
  case text =>
    intro s p k h0
    obtain ⟨k, rfl⟩ : ∃ k', k = k' + 1 := ⟨k - 1, by omega⟩
    rw [Node.descendantsK, Node.height]
    simp
  case nil => intro p k i; rw [Node.descendantsListK, Node.heights]; simp
  case cons =>
    intro x xs ih1 ih2 p k i
    rw [Node.heights]
    cases x with
    | elem n as cs =>
      rw [Node.descendantsListK]
      by_cases hk : k = 0
      · subst hk
        rw [Node.descendantsK, Node.height]
        simp
        omega
      · have h1 := ih1 (p ++ [i]) k (by omega)
        have h2 := ih2 p k (i + 1)
        split
        · rename_i ys hy
          rw [hy] at h1
          have := h1.1 rfl
          simp only [true_iff]
          omega
        · rename_i ys hy
          rw [hy] at h1
          simp only [Bool.false_eq_true, false_iff] at h1
          rw [h2]
          omega
    | text u =>
      rw [Node.descendantsListK, ih2, Node.height]
      omega

/-- C129: `descendants` under a limit yields the first of the descendants; all of them, without an exception, exactly if the
limit is at least the depth. -/
theorem C129_descendants_partial (k : Nat) (e : Node) (p : Path) (hk : 0 < k) :
    (e.descendantsK p k).1 <+: e.descendants p ∧
    (e.height ≤ k → e.descendantsK p k = (e.descendants p, false)) ∧
    (k < e.height → (e.descendantsK p k).2 = true) := by
  refine ⟨(descendantsK_sound.1 e p k).2, fun h => ?_, (descendantsK_ends.1 e p k hk).2⟩
  have hb : (e.descendantsK p k).2 = false := by
    cases hb : (e.descendantsK p k).2 with
    | false => rfl
    | true => have := (descendantsK_ends.1 e p k hk).1 hb; omega
  rw [← (descendantsK_sound.1 e p k).1 hb, ← hb]

/-! ### documents of any depth can be parsed -/

/-- `n` elements named `a`, each in the one before. -/
def tower : Nat → Node
  | 0 => .elem ['a'] [] []
  | n + 1 => .elem ['a'] [] [tower n]

/-- `<a><a>…</a></a>`. -/
def towerText : Nat → Str
  | 0 => "<a></a>".toList
  | n + 1 => "<a>".toList ++ (towerText n ++ "</a>".toList)

theorem tower_height (n : Nat) : (tower n).height = n + 1 := by
  induction n with
  | zero => rfl
  | succ n ih => simp only [tower, Node.height, Node.heights, ih]; omega

theorem tower_spelled (n : Nat) : IsContent [tower n] (towerText n) := by
  have hn : IsName ['a'] := by decide
  have hs : Space [] := by intro c hc; cases hc
  have hd : dictOf [] = [] := rfl
  induction n with
  | zero =>
    have := IsContent.elem (w0 := []) (w1 := []) (w2 := []) (w3 := []) (w4 := []) hn IsAttrs.nil IsContent.nil IsContent.nil hs hs hs hs hs
    exact this
  | succ n ih =>
    have := IsContent.elem (w0 := []) (w1 := []) (w2 := []) (w3 := []) (w4 := []) hn IsAttrs.nil ih IsContent.nil hs hs hs hs hs
    exact this

/-- C129 as stated is false: whatever the limit, there is a document that is parsed and that none of these functions can
handle. -/
theorem C129_full_statement_is_false (c : Needs) (k : Nat) (hk : 0 < k) : ∃ (w : Str) (e : Node),
    (∀ b r b', TreeParse b w r b' → ∃ i, r = .returned (some i) ∧ Rep b'.heap none i e) ∧
    e.encodeK c [] 0 k = none ∧ e.xmlValueK k = none ∧ e.strvalK c k = none ∧ (e.descendantsK [] k).2 = true := by
  have hh := tower_height k
  refine ⟨towerText k, tower k, ?_, ?_, ?_, ?_, ?_⟩
  · intro b r b' hp
    refine C20_builder_builds_the_tree ⟨by cases k <;> rfl, [], towerText k, [], ?_, ?_, tower_spelled k, by simp⟩ hp
    · intro c hc; cases hc
    · intro c hc; cases hc
  · exact (encodeK_none c []).1 _ 0 k (by omega)
  · exact xmlValueK_none.1 _ k (by omega) (by omega)
  · exact (strvalK_none c).1 _ k (by omega)
  · exact (descendantsK_ends.1 _ [] k hk).2 (by omega)

-- `<a>x<b/></a>` has two levels; with two calls and one for `escape` it is serialised, with one it is not
example : (Node.elem ['a'] [] [.text ['x'], .elem ['b'] [] []]).height = 2 ∧
    (Node.elem ['a'] [] [.text ['x'], .elem ['b'] [] []]).encodeK ⟨2, 1, 1, 2⟩ [] 0 2 = some "<a>x<b></b></a>".toList ∧
    (Node.elem ['a'] [] [.text ['x'], .elem ['b'] [] []]).encodeK ⟨2, 1, 1, 2⟩ [] 0 1 = none ∧
    (Node.elem ['a'] [] [.text ['x'], .elem ['b'] [] []]).xmlValueK 3 = some ['x'] ∧
    (⟨2, 1, 1, 2⟩ : Needs).Within 2 := by
  unfold Needs.Within
  decide

/-! ### C130 -/

theorem prettyK_done (c : Needs) :
    (∀ (x : Node) (d : Int) (ind : Str) (k : Nat), (x.prettyK c d ind k).2 = false → (x.prettyK c d ind k).1 = x.makePretty d ind) ∧
    (∀ (xs : List Node) (d : Int) (ind : Str) (k ix : Nat), (Node.prettyLoopK c d ind k ix xs).2.2 = false →
      (Node.prettyLoopK c d ind k ix xs).1 = xs.map (Node.prettyChild d) ∧
      (Node.prettyLoopK c d ind k ix xs).2.1 = Node.prettyLoop d ind ix xs) := by
  apply Node.induct
  case elem =>
    intro n as cs ih d ind k h
    cases k with
    | zero => cases h
    | succ k =>
      have h1 := ih (d + 1) ind k 0
      rw [Node.prettyK] at h ⊢
      split
      · rename_i a upd hl
        rw [hl] at h1
        have q : upd = _ := (h1 rfl).2
        rw [q, Node.makePretty]
      · rename_i hl
        rw [hl] at h
        cases h
  case text =>
    intro s d ind k h
    cases k with
    | zero => cases h
    | succ k => rfl
  case nil =>
    intro d ind k ix h
    rw [Node.prettyLoopK] at h ⊢
    rw [Node.prettyLoop]
    by_cases hx : ix % 2 = 0
    · simp only [if_pos hx] at h ⊢
      by_cases hk : k < c.text
      · rw [if_pos hk] at h; cases h
      · rw [if_neg hk]; exact ⟨rfl, rfl⟩
    · simp only [if_neg hx, List.map_nil, and_self]
  case cons =>
    intro x xs ih1 ih2 d ind k ix h
    cases x with
    | elem n as cs =>
      have h1 := ih1 d "  ".toList k
      rw [Node.prettyLoopK] at h ⊢
      rw [Node.prettyLoop]
      by_cases hx : ix % 2 = 1
      · have h2 := ih2 d ind k (ix + 1)
        simp only [if_pos hx] at h ⊢
        cases hp : Node.prettyK c d "  ".toList k (.elem n as cs) with
        | mk x' b =>
          cases hl : Node.prettyLoopK c d ind k (ix + 1) xs with
          | mk r' ub =>
            obtain ⟨u, b'⟩ := ub
            rw [hp] at h1
            rw [hl] at h2
            cases b with
            | true => rw [hp] at h; cases h
            | false =>
              simp only [hp, hl] at h ⊢
              subst h
              have q1 : r' = _ := (h2 rfl).1
              have q2 : u = _ := (h2 rfl).2
              have q3 : x' = _ := h1 rfl
              rw [q1, q2, q3]
              exact ⟨rfl, rfl⟩
      · have h2 := ih2 d ind k (ix + 2)
        simp only [if_neg hx] at h ⊢
        by_cases hk : k < c.text
        · rw [if_pos hk] at h; cases h
        · rw [if_neg hk] at h ⊢
          cases hp : Node.prettyK c d "  ".toList k (.elem n as cs) with
          | mk x' b =>
            cases hl : Node.prettyLoopK c d ind k (ix + 2) xs with
            | mk r' ub =>
              obtain ⟨u, b'⟩ := ub
              rw [hp] at h1
              rw [hl] at h2
              cases b with
              | true => rw [hp] at h; cases h
              | false =>
                simp only [hp, hl] at h ⊢
                subst h
                have q1 : r' = _ := (h2 rfl).1
                have q2 : u = _ := (h2 rfl).2
                have q3 : x' = _ := h1 rfl
                rw [q1, q2, q3]
                exact ⟨rfl, rfl⟩
    | text s =>
      have h2 := ih2 d ind k (ix + 1)
      rw [Node.prettyLoopK] at h ⊢
      rw [Node.prettyLoop]
      by_cases hk : k < c.value
      · rw [if_pos hk] at h; cases h
      · rw [if_neg hk] at h ⊢
        cases hl : Node.prettyLoopK c d ind k (ix + 1) xs with
        | mk r' ub =>
          obtain ⟨u, b'⟩ := ub
          rw [hl] at h2
          by_cases hb : isBlank s = false
          · simp only [if_pos hb, hl] at h ⊢
            subst h
            have q1 : r' = _ := (h2 rfl).1
            have q2 : u = _ := (h2 rfl).2
            rw [q1, q2]
            exact ⟨rfl, rfl⟩
          · simp only [if_neg hb] at h ⊢
            by_cases hk : k < c.text
            · rw [if_pos hk] at h; cases h
            · rw [if_neg hk] at h ⊢
              simp only [hl] at h ⊢
              subst h
              have q1 : r' = _ := (h2 rfl).1
              have q2 : u = _ := (h2 rfl).2
              rw [q1, q2]
              exact ⟨rfl, rfl⟩

/-- What an interrupted loop leaves of the old list of children. -/
theorem prettyK_half (c : Needs) :
    (∀ (x : Node) (d : Int) (ind : Str) (k : Nat), (x.prettyK c d ind k).2 = true → HalfPretty d x (x.prettyK c d ind k).1) ∧
    (∀ (xs : List Node) (d : Int) (ind : Str) (k ix : Nat), (Node.prettyLoopK c d ind k ix xs).2.2 = true →
      (∃ l r, xs = l ++ r ∧ (Node.prettyLoopK c d ind k ix xs).1 = l.map (Node.prettyChild d) ++ r) ∨
      (∃ l x x' r, xs = l ++ x :: r ∧ HalfPretty d x x' ∧
        (Node.prettyLoopK c d ind k ix xs).1 = l.map (Node.prettyChild d) ++ x' :: r)) := by
  have ext : ∀ (d : Int) (y y' : Node) (xs : List Node) (res : List Node), y' = y.prettyChild d →
      ((∃ l r, xs = l ++ r ∧ res = l.map (Node.prettyChild d) ++ r) ∨
        (∃ l x x' r, xs = l ++ x :: r ∧ HalfPretty d x x' ∧ res = l.map (Node.prettyChild d) ++ x' :: r)) →
      ((∃ l r, y :: xs = l ++ r ∧ y' :: res = l.map (Node.prettyChild d) ++ r) ∨
        (∃ l x x' r, y :: xs = l ++ x :: r ∧ HalfPretty d x x' ∧ y' :: res = l.map (Node.prettyChild d) ++ x' :: r)) := by
    rintro d y y' xs res rfl (⟨l, r, rfl, rfl⟩ | ⟨l, x, x', r, rfl, h, rfl⟩)
    · exact .inl ⟨y :: l, r, rfl, rfl⟩
    · exact .inr ⟨y :: l, x, x', r, rfl, h, rfl⟩
  apply Node.induct
  case elem =>
    intro n as cs ih d ind k h
    cases k with
    | zero => exact .here
    | succ k =>
      have h1 := ih (d + 1) ind k 0
      rw [Node.prettyK] at h ⊢
      cases hl : Node.prettyLoopK c (d + 1) ind k 0 cs with
      | mk r' ub =>
        obtain ⟨u, b'⟩ := ub
        rw [hl] at h1
        cases b' with
        | false => rw [hl] at h; cases h
        | true =>
          rcases h1 rfl with ⟨l, r, rfl, h2⟩ | ⟨l, x, x', r, rfl, h2, h3⟩
          · simp only at h2 ⊢; rw [h2]; exact .between
          · simp only at h3 ⊢; rw [h3]; exact .inside h2
  case text =>
    intro s d ind k h
    cases k with
    | zero => exact .here
    | succ k => cases h
  case nil =>
    intro d ind k ix h
    rw [Node.prettyLoopK] at h ⊢
    by_cases hx : ix % 2 = 0
    · simp only [if_pos hx] at h ⊢
      by_cases hk : k < c.text
      · rw [if_pos hk]; exact .inl ⟨[], [], rfl, rfl⟩
      · rw [if_neg hk] at h; cases h
    · simp only [if_neg hx] at h; cases h
  case cons =>
    intro x xs ih1 ih2 d ind k ix h
    cases x with
    | elem n as cs =>
      have h1 := ih1 d "  ".toList k
      have h1' := (prettyK_done c).1 (.elem n as cs) d "  ".toList k
      rw [Node.prettyLoopK] at h ⊢
      by_cases hx : ix % 2 = 1
      · have h2 := ih2 d ind k (ix + 1)
        simp only [if_pos hx] at h ⊢
        cases hp : Node.prettyK c d "  ".toList k (.elem n as cs) with
        | mk x' b =>
          cases hl : Node.prettyLoopK c d ind k (ix + 1) xs with
          | mk r' ub =>
            obtain ⟨u, b'⟩ := ub
            rw [hp] at h1 h1'
            rw [hl] at h2
            cases b with
            | true => exact .inr ⟨[], _, x', xs, rfl, h1 rfl, rfl⟩
            | false =>
              simp only [hp, hl] at h ⊢
              exact ext d _ _ _ _ (h1' rfl) (h2 h)
      · have h2 := ih2 d ind k (ix + 2)
        simp only [if_neg hx] at h ⊢
        by_cases hk : k < c.text
        · rw [if_pos hk]; exact .inl ⟨[], _, rfl, rfl⟩
        · rw [if_neg hk] at h ⊢
          cases hp : Node.prettyK c d "  ".toList k (.elem n as cs) with
          | mk x' b =>
            cases hl : Node.prettyLoopK c d ind k (ix + 2) xs with
            | mk r' ub =>
              obtain ⟨u, b'⟩ := ub
              rw [hp] at h1 h1'
              rw [hl] at h2
              cases b with
              | true => exact .inr ⟨[], _, x', xs, rfl, h1 rfl, rfl⟩
              | false =>
                simp only [hp, hl] at h ⊢
                exact ext d _ _ _ _ (h1' rfl) (h2 h)
    | text s =>
      have h2 := ih2 d ind k (ix + 1)
      rw [Node.prettyLoopK] at h ⊢
      by_cases hk : k < c.value
      · rw [if_pos hk]; exact .inl ⟨[], _, rfl, rfl⟩
      · rw [if_neg hk] at h ⊢
        cases hl : Node.prettyLoopK c d ind k (ix + 1) xs with
        | mk r' ub =>
          obtain ⟨u, b'⟩ := ub
          rw [hl] at h2
          by_cases hb : isBlank s = false
          · simp only [if_pos hb, hl] at h ⊢
            exact ext d _ _ _ _ rfl (h2 h)
          · simp only [if_neg hb] at h ⊢
            by_cases hk : k < c.text
            · rw [if_pos hk]; exact .inl ⟨[], _, rfl, rfl⟩
            · rw [if_neg hk] at h ⊢
              simp only [hl] at h ⊢
              exact ext d _ _ _ _ rfl (h2 h)

theorem bareList_append (xs ys : List Node) : Node.bareList (xs ++ ys) = Node.bareList xs ++ Node.bareList ys := by
  induction xs with
  | nil => rfl
  | cons x xs ih =>
    cases x with
    | elem n as cs => simp [Node.bareList, ih]
    | text s =>
      simp only [List.cons_append, Node.bareList, ih]
      split <;> rfl

theorem half_bare {d : Int} {x x' : Node} (h : HalfPretty d x x') : x'.bare = x.bare ∧ x'.isText = x.isText := by
  have h2 : ∀ c ∈ "  ".toList, isPySpace c = true := by decide
  have hl : ∀ (d : Int) (l : List Node), Node.bareList (l.map (Node.prettyChild d)) = Node.bareList l := by
    intro d l
    induction l with
    | nil => rfl
    | cons y l ih =>
      cases y with
      | text s => simp only [List.map_cons, Node.prettyChild, Node.bareList, ih]
      | elem n as cs =>
        have := pretty_bare.1 (.elem n as cs) d _ h2
        rw [Node.makePretty] at this
        simp only [List.map_cons, Node.prettyChild, Node.makePretty, Node.bareList, ih, this]
  have hc : ∀ (y y' : Node) (r : List Node), y'.bare = y.bare → y'.isText = y.isText → Node.bareList (y' :: r) = Node.bareList (y :: r) := by
    intro y y' r h1 h3
    cases y with
    | text s =>
      cases y' with
      | text s' => simp only [Node.bare] at h1; cases h1; rfl
      | elem n as cs => cases h3
    | elem n as cs =>
      cases y' with
      | text s' => cases h3
      | elem n' as' cs' => rw [Node.bareList, Node.bareList, h1]
  induction h with
  | here => exact ⟨rfl, rfl⟩
  | between => exact ⟨by simp only [Node.bare, bareList_append, hl], rfl⟩
  | @inside d n as l x x' r h ih =>
    exact ⟨by simp only [Node.bare, bareList_append, hl, hc _ _ r ih.1 ih.2], rfl⟩

theorem prettyK_raises (c : Needs) :
    (∀ (x : Node) (d : Int) (ind : Str) (k : Nat), k < x.height → (x.prettyK c d ind k).2 = true) ∧
    (∀ (xs : List Node) (d : Int) (ind : Str) (k ix : Nat), k < Node.heights xs → (Node.prettyLoopK c d ind k ix xs).2.2 = true) := by
  apply Node.induct
  case elem =>
    intro n as cs ih d ind k h
    cases k with
    | zero => rfl
    | succ k =>
      have h1 := ih (d + 1) ind k 0 (by rw [Node.height] at h; omega)
      rw [Node.prettyK]
      split
      · rename_i hl; rw [hl] at h1; cases h1
      · rfl
  case text => intro s d ind k h; rw [Node.height] at h; omega
  case nil => intro d ind k ix h; rw [Node.heights] at h; omega
  case cons =>
    intro x xs ih1 ih2 d ind k ix h
    rw [Node.heights] at h
    cases x with
    | elem n as cs =>
      have h1 := ih1 d "  ".toList k
      have h2 := fun ix h => ih2 d ind k ix h
      have key : ∀ ix, ((Node.elem n as cs).prettyK c d "  ".toList k).2 = false → (Node.prettyLoopK c d ind k ix xs).2.2 = true := by
        intro ix hb
        refine h2 ix ?_
        have : ¬ k < (Node.elem n as cs).height := fun h9 => by rw [h1 h9] at hb; cases hb
        omega
      rw [Node.prettyLoopK]
      cases hp : Node.prettyK c d "  ".toList k (.elem n as cs) with
      | mk x' b =>
        rw [hp] at key
        cases b with
        | true => by_cases hx : ix % 2 = 1 <;> by_cases hk : k < c.text <;> simp [hx, hk]
        | false =>
          by_cases hx : ix % 2 = 1 <;> by_cases hk : k < c.text <;> simp [hx, hk, key _ rfl]
    | text s =>
      have h2 := ih2 d ind k (ix + 1) (by rw [Node.height] at h; omega)
      rw [Node.prettyLoopK]
      by_cases hv : k < c.value <;> by_cases hb : isBlank s = false <;> by_cases hk : k < c.text <;> simp [hv, hb, hk, h2]

theorem prettyK_enough (c : Needs) (m : Nat) (hc : c.Within m) :
    (∀ (x : Node) (d : Int) (ind : Str) (k : Nat), 0 < k → x.height + m ≤ k → (x.prettyK c d ind k).2 = false) ∧
    (∀ (xs : List Node) (d : Int) (ind : Str) (k ix : Nat), Node.heights xs + m ≤ k →
      (Node.prettyLoopK c d ind k ix xs).2.2 = false) := by
  have hv : ∀ k, m ≤ k → ¬ k < c.value := fun k h => by have := hc.2.2.1; omega
  have ht : ∀ k, m ≤ k → ¬ k < c.text := fun k h => by have := hc.2.2.2; omega
  apply Node.induct
  case elem =>
    intro n as cs ih d ind k h0 h
    obtain ⟨k, rfl⟩ : ∃ k', k = k' + 1 := ⟨k - 1, by omega⟩
    have h1 := ih (d + 1) ind k 0 (by rw [Node.height] at h; omega)
    rw [Node.prettyK]
    split
    · rfl
    · rename_i hl; rw [hl] at h1; cases h1
  case text =>
    intro s d ind k h0 h
    obtain ⟨k, rfl⟩ : ∃ k', k = k' + 1 := ⟨k - 1, by omega⟩
    rfl
  case nil =>
    intro d ind k ix h
    rw [Node.prettyLoopK]
    by_cases hx : ix % 2 = 0 <;> simp [hx, ht k (by omega)]
  case cons =>
    intro x xs ih1 ih2 d ind k ix h
    rw [Node.heights] at h
    cases x with
    | elem n as cs =>
      have h1 := ih1 d "  ".toList k (by rw [Node.height] at h; omega) (by omega)
      have h2 := fun ix => ih2 d ind k ix (by omega)
      rw [Node.prettyLoopK]
      cases hp : Node.prettyK c d "  ".toList k (.elem n as cs) with
      | mk x' b =>
        rw [hp] at h1
        simp only at h1
        subst h1
        by_cases hx : ix % 2 = 1 <;> simp [hx, ht k (by omega), h2]
    | text s =>
      have h2 := ih2 d ind k (ix + 1) (by omega)
      rw [Node.prettyLoopK]
      by_cases hb : isBlank s = false <;> simp [hv k (by omega), ht k (by omega), hb, h2]

/-- C130: `make_pretty` under a limit on nested calls either finishes with the result it has without a limit, or raises and
leaves the tree done on the left of one way down and untouched elsewhere; it raises if the limit is less than the
depth, and finishes if it exceeds it by what the functions used need. -/
theorem C130_interrupted (c : Needs) (m : Nat) (hc : c.Within m) (d : Int) (ind : Str) (k : Nat) (e : Node) (he : e.isText = false) :
    ((e.prettyK c d ind k).2 = false → (e.prettyK c d ind k).1 = e.makePretty d ind) ∧
    ((e.prettyK c d ind k).2 = true → HalfPretty d e (e.prettyK c d ind k).1) ∧
    (k < e.height → (e.prettyK c d ind k).2 = true) ∧ (e.height + m ≤ k → (e.prettyK c d ind k).2 = false) := by
  refine ⟨(prettyK_done c).1 e d ind k, (prettyK_half c).1 e d ind k, (prettyK_raises c).1 e d ind k, fun h => ?_⟩
  refine (prettyK_enough c m hc).1 e d ind k ?_ h
  cases e with
  | text s => cases he
  | elem n as cs => rw [Node.height] at h; omega

/-- C130: finished or not, only white-space-only text has changed. -/
theorem C130_nothing_is_lost (c : Needs) (d : Int) (ind : Str) (hi : Blank ind) (k : Nat) (e : Node) :
    (e.prettyK c d ind k).1.bare = e.bare := by
  cases h : (e.prettyK c d ind k).2 with
  | false => rw [(prettyK_done c).1 e d ind k h]; exact pretty_bare.1 e d ind hi
  | true => exact (half_bare ((prettyK_half c).1 e d ind k h)).1

/-- C130 as stated is false: whatever the limit (if it leaves room for making a text node two calls down), there is a tree
that `make_pretty` neither leaves as it was nor finishes. -/
theorem C130_full_statement_is_false (c : Needs) (k : Nat) (hk : c.text ≤ k) : ∃ e : Node,
    (e.prettyK c 0 "  ".toList (k + 2)).2 = true ∧ (e.prettyK c 0 "  ".toList (k + 2)).1 ≠ e ∧
    (e.prettyK c 0 "  ".toList (k + 2)).1 ≠ e.makePretty 0 "  ".toList := by
  have hh := tower_height (k + 1)
  have hr : (Node.elem ['a'] [] [.elem ['b'] [] [], tower (k + 1)]).prettyK c 0 "  ".toList (k + 2) =
      (.elem ['a'] [] [.elem ['b'] [] [.text "\n  ".toList], ((tower (k + 1)).prettyK c 1 "  ".toList (k + 1)).1], true) := by
    have h1 := (prettyK_raises c).1 (tower (k + 1)) 1 "  ".toList (k + 1) (by omega)
    have ht : ∃ cs, tower (k + 1) = .elem ['a'] [] cs := ⟨_, rfl⟩
    obtain ⟨cs, ht⟩ := ht
    rw [ht] at h1 ⊢
    cases hp : Node.prettyK c 1 "  ".toList (k + 1) (.elem ['a'] [] cs) with
    | mk x' b =>
      rw [hp] at h1
      cases h1
      have n1 : ¬ k + 1 < c.text := by omega
      have n2 : ¬ k < c.text := by omega
      have hb : Node.prettyK c 1 "  ".toList (k + 1) (.elem ['b'] [] []) = (.elem ['b'] [] [.text "\n  ".toList], false) := by
        rw [Node.prettyK, Node.prettyLoopK, if_pos rfl, if_neg n2]
        rfl
      have e1 : (0 : Int) + 1 = 1 := rfl
      rw [Node.prettyK, e1, Node.prettyLoopK, if_neg (by decide), if_neg n1, hb]
      simp only
      rw [Node.prettyLoopK, if_neg (by decide), if_neg n1, hp]
  refine ⟨_, by rw [hr], ?_, ?_⟩
  · rw [hr]
    intro h
    simp at h
  · rw [hr]
    intro h
    simp [Node.makePretty, Node.prettyLoop] at h

-- `<a><b>1</b><c><d/></c></a>` with room for two levels: `b` is done, `a` and `c` are as they were
example : (Node.elem ['a'] [] [.elem ['b'] [] [], .elem ['c'] [] [.elem ['d'] [] []]]).prettyK ⟨0, 0, 0, 0⟩ 0 "  ".toList 2 =
    (.elem ['a'] [] [.elem ['b'] [] [.text "\n  ".toList], .elem ['c'] [] [.elem ['d'] [] []]], true) := by decide

end Amara
