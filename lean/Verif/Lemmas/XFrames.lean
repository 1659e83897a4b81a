import Verif.Spec.XFrames
import Verif.Lemmas.XHeap
/-
Lemmas for C157: every construction of the evaluator keeps `Res.CutOf`.
-/
namespace Amara

variable {F : Type}

theorem cut_refl (r : Res F) : r.CutOf r := .inl rfl

theorem cut_tooDeep {r : Res F} : Res.CutOf .tooDeep r := .inr ⟨rfl, List.nil_prefix⟩

theorem cut_stop {r : Res F} : Res.CutOf ⟨[], .err .recursion⟩ r := .inr ⟨rfl, List.nil_prefix⟩

theorem cut_trans {a b d : Res F} (h : a.CutOf b) (h' : b.CutOf d) : a.CutOf d := by
  rcases h with rfl | ⟨h1, h2⟩
  · exact h'
  · rcases h' with rfl | ⟨_, h4⟩
    · exact .inr ⟨h1, h2⟩
    · exact .inr ⟨h1, h2.trans h4⟩

theorem append_items_prefix (a b : Res F) : a.items <+: (a.append b).items := by
  unfold Res.append
  split
  · exact List.prefix_append _ _
  · exact List.prefix_refl _

theorem cut_append {a a₀ b b₀ : Res F} (ha : a.CutOf a₀) (hb : b.CutOf b₀) : (a.append b).CutOf (a₀.append b₀) := by
  rcases ha with rfl | ⟨h1, h2⟩
  · unfold Res.append
    split
    · rcases hb with rfl | ⟨h3, h4⟩
      · exact cut_refl _
      · exact .inr ⟨h3, (List.prefix_append_right_inj _).2 h4⟩
    · exact cut_refl _
  · refine .inr ⟨?_, (?_ : _ <+: _).trans (h2.trans (append_items_prefix _ _))⟩
    · unfold Res.append; rw [h1]
    · unfold Res.append; rw [h1]; exact List.prefix_refl _

theorem cut_bindList {f f₀ : Item F → Res F} (hf : ∀ x, (f x).CutOf (f₀ x)) (t : Tail) :
    ∀ xs, (Res.bindList f t xs).CutOf (Res.bindList f₀ t xs)
  | [] => cut_refl _
  | x :: r => cut_append (hf x) (cut_bindList hf t r)

theorem cut_bindStop {f f₀ : Item F → Res F} (hf : ∀ x, (f x).CutOf (f₀ x)) (t : Tail) (ys : List (Item F)) :
    ∀ xs, (Res.bindList f (.err .recursion) xs).CutOf (Res.bindList f₀ t (xs ++ ys))
  | [] => cut_stop
  | x :: r => cut_append (hf x) (cut_bindStop hf t ys r)

theorem cut_bind {a a₀ : Res F} {f f₀ : Item F → Res F} (ha : a.CutOf a₀) (hf : ∀ x, (f x).CutOf (f₀ x)) :
    (a.bind f).CutOf (a₀.bind f₀) := by
  rcases ha with rfl | ⟨h1, ys, h2⟩
  · exact cut_bindList hf _ _
  · unfold Res.bind
    rw [h1, ← h2]
    exact cut_bindStop hf _ _ _

theorem cut_first {a a₀ : Res F} (ha : a.CutOf a₀) : a.first = a₀.first ∨ a.first = .stop (.err .recursion) := by
  rcases ha with rfl | ⟨h1, ys, h2⟩
  · exact .inl rfl
  · rcases a with ⟨_ | ⟨x, xs⟩, t⟩
    · cases h1; exact .inr rfl
    · rcases a₀ with ⟨_ | ⟨y, ys'⟩, t'⟩
      · cases h2
      · cases h2; exact .inl rfl

theorem cut_need {a a₀ : Res F} {f f₀ : Item F → Res F} (ha : a.CutOf a₀) (hf : ∀ x, (f x).CutOf (f₀ x)) :
    (a.need f).CutOf (a₀.need f₀) := by
  unfold Res.need
  rcases cut_first ha with h | h
  · rw [h]
    split
    · exact hf _
    · exact cut_refl _
    · exact cut_refl _
  · rw [h]; exact cut_stop

theorem cut_orDefault {a a₀ : Res F} {f f₀ : Item F → Res F} (d : Item F) (ha : a.CutOf a₀) (hf : ∀ x, (f x).CutOf (f₀ x)) :
    (a.orDefault d f).CutOf (a₀.orDefault d f₀) := by
  unfold Res.orDefault
  rcases cut_first ha with h | h
  · rw [h]
    split
    · exact hf _
    · exact hf _
    · exact cut_refl _
  · rw [h]; exact cut_stop

theorem eqLoop_append (fo : FloatOps F) (doc : Node) (i : Item F) (t : Tail) (ys : List (Item F)) :
    ∀ xs, eqLoop fo doc i (.err .recursion) xs = eqLoop fo doc i t (xs ++ ys) ∨
      eqLoop fo doc i (.err .recursion) xs = .inr (.err .recursion)
  | [] => .inr rfl
  | j :: r => by
    simp only [eqLoop, List.cons_append]
    split
    · exact .inl rfl
    · split
      · exact .inl rfl
      · exact eqLoop_append fo doc i t ys r

theorem cut_eqRes (fo : FloatOps F) (doc : Node) {l l₀ r r₀ : Res F} (hl : l.CutOf l₀) (hr : r.CutOf r₀) :
    (eqRes fo doc l r).CutOf (eqRes fo doc l₀ r₀) := by
  have hR : ∀ i, eqLoop fo doc i r.tail r.items = eqLoop fo doc i r₀.tail r₀.items ∨
      eqLoop fo doc i r.tail r.items = .inr (.err .recursion) := by
    intro i
    rcases hr with rfl | ⟨h1, ys, h2⟩
    · exact .inl rfl
    · rw [h1, ← h2]; exact eqLoop_append fo doc i _ ys _
  have hL : (eqRes fo doc l r).CutOf (eqRes fo doc l r₀) := by
    unfold eqRes
    split
    · exact cut_refl _
    · rcases hR ((‹Item F›).atom doc) with h | h
      · rw [h]; exact cut_refl _
      · rw [h]; exact cut_stop
  refine cut_trans hL ?_
  rcases hl with rfl | ⟨h1, ys, h2⟩
  · exact cut_refl _
  · rcases l with ⟨_ | ⟨x, xs⟩, t⟩
    · cases h1; exact cut_stop
    · rcases l₀ with ⟨_ | ⟨y, ys'⟩, t'⟩
      · cases h2
      · cases h1; cases h2
        unfold eqRes
        simp only []
        split
        · exact cut_refl _
        · rw [if_neg (by simp)]; exact cut_stop
        · exact cut_refl _

theorem cut_unionRes (doc : Node) (x : Item F) {l l₀ r r₀ : Res F} (hl : l.CutOf l₀) (hr : r.CutOf r₀) :
    (unionRes doc x l r).CutOf (unionRes doc x l₀ r₀) := by
  unfold unionRes
  split
  · rcases hl with rfl | ⟨h1, _⟩
    · rcases hr with rfl | ⟨h1, _⟩
      · exact cut_refl _
      · rw [h1]
        cases l.tail
        · exact cut_stop
        · exact cut_refl _
        · exact cut_refl _
    · rw [h1]; exact cut_stop
  · exact cut_refl _

theorem cut_predStop {f f₀ : Nat → Item F → Bool ⊕ Tail}
    (hf : ∀ p x, f p x = f₀ p x ∨ f p x = .inr (.err .recursion)) (t t' : Tail) (ys : List (Item F)) (ht : (ys = [] ∧ t = t') ∨ t = .err .recursion) :
    ∀ xs p, (predLoop f t p xs).CutOf (predLoop f₀ t' p (xs ++ ys))
  | [], p => by
    rcases ht with ⟨rfl, rfl⟩ | rfl
    · exact cut_refl _
    · exact cut_stop
  | x :: r, p => by
    simp only [predLoop, List.cons_append]
    rcases hf p x with h | h
    · rw [h]
      split
      · exact cut_refl _
      · rename_i b _
        have ih := cut_predStop hf t t' ys ht r (p + 1)
        cases b
        · exact ih
        · rcases ih with h | ⟨h1, h2⟩
          · simp only [h]; exact cut_refl _
          · exact .inr ⟨h1, List.cons_prefix_cons.2 ⟨rfl, h2⟩⟩
    · rw [h]; exact cut_stop

theorem cut_pred {a a₀ : Res F} (ha : a.CutOf a₀) {f f₀ : Nat → Item F → Bool ⊕ Tail}
    (hf : ∀ p x, f p x = f₀ p x ∨ f p x = .inr (.err .recursion)) (p : Nat) :
    (predLoop f a.tail p a.items).CutOf (predLoop f₀ a₀.tail p a₀.items) := by
  rcases ha with rfl | ⟨h1, ys, h2⟩
  · have := cut_predStop hf a.tail a.tail [] (.inl ⟨rfl, rfl⟩) a.items p
    rwa [List.append_nil] at this
  · rw [← h2]
    exact cut_predStop hf _ _ ys (.inr h1) _ _

theorem cut_predHolds (fo : FloatOps F) (doc : Node) (pos : Nat) {a a₀ : Res F} (ha : a.CutOf a₀) :
    predHolds fo doc pos a = predHolds fo doc pos a₀ ∨ predHolds fo doc pos a = .inr (.err .recursion) := by
  unfold predHolds
  rcases cut_first ha with h | h
  · rw [h]; exact .inl rfl
  · rw [h]; exact .inr rfl

theorem cut_strArg (fo : FloatOps F) (doc : Node) {a a₀ : Res F} {f f₀ : Str → Res F} (ha : a.CutOf a₀) (hf : ∀ x, (f x).CutOf (f₀ x)) :
    (strArg fo doc a f).CutOf (strArg fo doc a₀ f₀) := cut_orDefault _ ha fun _ => hf _

theorem cut_str2 (fo : FloatOps F) (doc : Node) (f : Str → Str → Res F) {rs rs₀ : List (Res F)} (hs : All2 Res.CutOf rs rs₀) :
    (fnStr2 fo doc f rs).CutOf (fnStr2 fo doc f rs₀) := by
  unfold fnStr2
  cases hs with
  | nil => exact cut_refl _
  | cons h1 hs =>
    cases hs with
    | nil => exact cut_refl _
    | cons h2 hs =>
      cases hs with
      | nil => exact cut_strArg fo doc h1 fun s => cut_strArg fo doc h2 fun u => cut_refl _
      | cons _ _ => exact cut_refl _

theorem cut_appendAll {rs rs₀ : List (Res F)} (hs : All2 Res.CutOf rs rs₀) :
    (rs.foldr Res.append Res.nil).CutOf (rs₀.foldr Res.append Res.nil) := by
  induction hs with
  | nil => exact cut_refl _
  | cons h1 _ ih => exact cut_append h1 ih

/-- A function of at most one argument. -/
theorem cut_args {g : List (Res F) → Res F} (h1 : ∀ a a', a.CutOf a' → (g [a]).CutOf (g [a']))
    (h2 : ∀ a b l a' b' l', g (a :: b :: l) = g (a' :: b' :: l')) {rs rs'} (hs : All2 Res.CutOf rs rs') : (g rs).CutOf (g rs') := by
  cases hs with
  | nil => exact cut_refl _
  | cons ha hs =>
    cases hs with
    | nil => exact h1 _ _ ha
    | cons _ _ => rw [h2]; exact cut_refl _

/-- What an expression given as a text gives, with a limit and without. -/
def CutDyn (d d₀ : Except XErr (Item F → Res F)) : Prop :=
  d = .error .recursion ∨ (∃ e, d = .error e ∧ d₀ = .error e) ∨ ∃ g g₀, d = .ok g ∧ d₀ = .ok g₀ ∧ ∀ x, (g x).CutOf (g₀ x)

theorem cut_call (fo : FloatOps F) (doc : Node) {dyn dyn₀ : Str → Except XErr (Item F → Res F)} (hdyn : ∀ s, CutDyn (dyn s) (dyn₀ s))
    (x : Item F) (m : Str) (es : List (Expr F)) {rs rs₀} (hs : All2 Res.CutOf rs rs₀) :
    (callFn fo doc dyn x m es rs).CutOf (callFn fo doc dyn₀ x m es rs₀) := by
  have hconst : ∀ {r : Res F}, (fnConst r rs).CutOf (fnConst r rs₀) := by
    intro r
    unfold fnConst
    cases hs <;> exact cut_refl _
  have htodo : ∀ k, (fnTodo k rs : Res F).CutOf (fnTodo k rs₀) := by
    intro k
    unfold fnTodo
    rw [all2_length hs]
    exact cut_refl _
  unfold callFn
  by_cases hc0 : m = "name".toList
  · rw [if_pos hc0, if_pos hc0]
    exact cut_args (fun a a' ha => cut_orDefault _ ha fun y => cut_refl _) (fun _ _ _ _ _ _ => rfl) hs
  rw [if_neg hc0, if_neg hc0]
  by_cases hc1 : m = "last".toList
  · rw [if_pos hc1, if_pos hc1]
    exact hconst
  rw [if_neg hc1, if_neg hc1]
  by_cases hc2 : m = "count".toList
  · rw [if_pos hc2, if_pos hc2]
    refine cut_args (fun a a' ha => ?_) (fun _ _ _ _ _ _ => rfl) hs
    rcases ha with rfl | ⟨h1, _⟩
    · exact cut_refl _
    · unfold fnCount
      simp only [h1]
      rw [if_neg (by simp)]
      exact cut_stop
  rw [if_neg hc2, if_neg hc2]
  by_cases hc3 : m = "string".toList
  · rw [if_pos hc3, if_pos hc3]
    exact cut_args (fun a a' ha => cut_orDefault _ ha fun y => cut_refl _) (fun _ _ _ _ _ _ => rfl) hs
  rw [if_neg hc3, if_neg hc3]
  by_cases hc4 : m = "concat".toList
  · rw [if_pos hc4, if_pos hc4]
    unfold concatRes
    rcases cut_appendAll hs with h | ⟨h1, _⟩
    · rw [h]; exact cut_refl _
    · simp only [h1]; exact cut_stop
  rw [if_neg hc4, if_neg hc4]
  by_cases hc5 : m = "starts-with".toList
  · rw [if_pos hc5, if_pos hc5]
    exact cut_str2 fo doc _ hs
  rw [if_neg hc5, if_neg hc5]
  by_cases hc6 : m = "contains".toList
  · rw [if_pos hc6, if_pos hc6]
    exact cut_str2 fo doc _ hs
  rw [if_neg hc6, if_neg hc6]
  by_cases hc7 : m = "substring-before".toList
  · rw [if_pos hc7, if_pos hc7]
    exact cut_str2 fo doc _ hs
  rw [if_neg hc7, if_neg hc7]
  by_cases hc8 : m = "substring-after".toList
  · rw [if_pos hc8, if_pos hc8]
    exact cut_str2 fo doc _ hs
  rw [if_neg hc8, if_neg hc8]
  by_cases hc9 : m = "substring".toList
  · rw [if_pos hc9, if_pos hc9]
    unfold fnSubstring
    match es with
    | [e0, e1, e2] =>
      simp only []
      cases hs with
      | nil => exact cut_refl _
      | cons h1 _ => exact cut_strArg fo doc h1 fun s => cut_refl _
    | [] => exact cut_refl _
    | [_] => exact cut_refl _
    | [_, _] => exact cut_refl _
    | _ :: _ :: _ :: _ :: _ => exact cut_refl _
  rw [if_neg hc9, if_neg hc9]
  by_cases hc10 : m = "string-length".toList
  · rw [if_pos hc10, if_pos hc10]
    refine cut_args (fun a a' ha => ?_) (fun _ _ _ _ _ _ => rfl) hs
    unfold fnLength
    exact cut_orDefault _ ha fun y => cut_refl _
  rw [if_neg hc10, if_neg hc10]
  by_cases hc11 : m = "boolean".toList
  · rw [if_pos hc11, if_pos hc11]
    exact cut_args (fun a a' ha => cut_orDefault _ ha fun y => cut_refl _) (fun _ _ _ _ _ _ => rfl) hs
  rw [if_neg hc11, if_neg hc11]
  by_cases hc12 : m = "not".toList
  · rw [if_pos hc12, if_pos hc12]
    exact cut_args (fun a a' ha => cut_orDefault _ ha fun y => cut_refl _) (fun _ _ _ _ _ _ => rfl) hs
  rw [if_neg hc12, if_neg hc12]
  by_cases hc13 : m = "true".toList
  · rw [if_pos hc13, if_pos hc13]
    exact hconst
  rw [if_neg hc13, if_neg hc13]
  by_cases hc14 : m = "false".toList
  · rw [if_pos hc14, if_pos hc14]
    exact hconst
  rw [if_neg hc14, if_neg hc14]
  by_cases hc15 : m = "number".toList
  · rw [if_pos hc15, if_pos hc15]
    exact cut_args (fun a a' ha => cut_orDefault _ ha fun y => cut_refl _) (fun _ _ _ _ _ _ => rfl) hs
  rw [if_neg hc15, if_neg hc15]
  by_cases hc16 : m = "for-each".toList
  · rw [if_pos hc16, if_pos hc16]
    unfold fnForEach
    cases hs with
    | nil => exact cut_refl _
    | cons h1 hs =>
      cases hs with
      | nil => exact cut_refl _
      | cons h2 hs =>
        cases hs with
        | nil =>
          refine cut_strArg fo doc h2 fun s => ?_
          rcases hdyn s with e1 | ⟨e, e1, e2⟩ | ⟨g, g', e1, e2, e3⟩
          · rw [e1]; exact cut_tooDeep
          · rw [e1, e2]; exact cut_refl _
          · rw [e1, e2]
            exact cut_bind h1 fun y => e3 _
        | cons _ _ => exact cut_refl _
  rw [if_neg hc16, if_neg hc16]
  by_cases hc17 : m = "lookup".toList
  · rw [if_pos hc17, if_pos hc17]
    exact cut_str2 fo doc _ hs
  rw [if_neg hc17, if_neg hc17]
  by_cases hc18 : m = "normalize-space".toList ∨ m = "sum".toList ∨ m = "floor".toList ∨ m = "ceiling".toList ∨ m = "round".toList
  · rw [if_pos hc18, if_pos hc18]
    exact htodo _
  rw [if_neg hc18, if_neg hc18]
  by_cases hc19 : m = "translate".toList ∨ m = "same-lang".toList
  · rw [if_pos hc19, if_pos hc19]
    exact htodo _
  rw [if_neg hc19, if_neg hc19]
  exact cut_refl _

/-! ### conversions -/

theorem cut_convFirst (doc : Node) (c : QNeeds) (k : Nat) (f : Str) (a : Res F) : (a.convFirst doc c k f).CutOf a := by
  unfold Res.convFirst
  split <;> split <;> first | exact cut_refl _ | exact cut_tooDeep

theorem cut_convAll (doc : Node) (c : QNeeds) (k : Nat) (f : Str) (a : Res F) : (a.convAll doc c k f).CutOf a := by
  have : ∀ (t : Tail) (xs : List (Item F)), (convItems doc c k f t xs).CutOf ⟨xs, t⟩ := by
    intro t xs
    induction xs with
    | nil => exact cut_refl _
    | cons x r ih =>
      rw [convItems]
      split
      · rcases ih with h | ⟨h1, h2⟩
        · rw [h]; exact cut_refl _
        · exact .inr ⟨h1, List.cons_prefix_cons.2 ⟨rfl, h2⟩⟩
      · exact cut_tooDeep
  exact this _ _

theorem all2_cut_map {g : Res F → Res F} (hg : ∀ a, (g a).CutOf a) {rs rs₀ : List (Res F)} (hs : All2 Res.CutOf rs rs₀) :
    All2 Res.CutOf (rs.map g) rs₀ := by
  induction hs with
  | nil => exact .nil
  | cons h1 _ ih => exact .cons (cut_trans (hg _) h1) ih

theorem cut_convArgs (doc : Node) (c : QNeeds) (k : Nat) (f : Str) {rs rs₀ : List (Res F)} (hs : All2 Res.CutOf rs rs₀) :
    All2 Res.CutOf (convArgs doc c k f rs) rs₀ := by
  unfold convArgs
  split
  · exact all2_cut_map (cut_convAll doc c k f) hs
  · split
    · cases hs with
      | nil => exact .nil
      | cons h1 hs =>
        cases hs with
        | nil => exact .cons h1 .nil
        | cons h2 hs =>
          cases hs with
          | nil => exact .cons h1 (.cons (cut_trans (cut_convFirst doc c k f _) h2) .nil)
          | cons h3 hs => exact .cons h1 (.cons h2 (.cons h3 hs))
    · split
      · exact all2_cut_map (cut_convFirst doc c k f) hs
      · exact hs

/-- What an expression given as a text gives with `k` calls, and without a limit. -/
def CutDynK (d : Except XErr (Nat → Item F → Res F)) (d₀ : Except XErr (Item F → Res F)) : Prop :=
  (∃ e, d = .error e ∧ d₀ = .error e) ∨ ∃ g g₀, d = .ok g ∧ d₀ = .ok g₀ ∧ ∀ k x, (g k x).CutOf (g₀ x)

theorem cut_callK (fo : FloatOps F) (doc : Node) (c : QNeeds) (k : Nat) {dyn : Str → Except XErr (Nat → Item F → Res F)}
    {dyn₀ : Str → Except XErr (Item F → Res F)} (hdyn : ∀ s, CutDynK (dyn s) (dyn₀ s)) (x : Item F) (m : Str) (es : List (Expr F))
    {rs rs₀} (hs : All2 Res.CutOf rs rs₀) : (callFnK fo doc c k dyn x m es rs).CutOf (callFn fo doc dyn₀ x m es rs₀) := by
  unfold callFnK
  split
  · exact cut_tooDeep
  · split
    · exact cut_tooDeep
    · refine cut_call fo doc (fun s => ?_) x m es (cut_convArgs doc c k m hs)
      split
      · exact .inl rfl
      · rcases hdyn s with ⟨e, e1, e2⟩ | ⟨g, g₀, e1, e2, e3⟩
        · exact .inr (.inl ⟨e, by rw [e1]; rfl, e2⟩)
        · refine .inr (.inr ⟨_, g₀, by rw [e1]; rfl, e2, fun y => ?_⟩)
          split
          · exact cut_tooDeep
          · exact e3 _ _

theorem cut_run {k : Nat} {body : Nat → Res F} {r : Res F} (h : ∀ k, (body k).CutOf r) : (callK k body).CutOf r := by
  cases k with
  | zero => exact cut_tooDeep
  | succ k => exact h k

theorem cut_if {p : Prop} [Decidable p] {a r : Res F} (h : a.CutOf r) : (if p then .tooDeep else a).CutOf r := by
  split
  · exact cut_tooDeep
  · exact h

theorem cut_step (fo : FloatOps F) (doc : Node) (c : QNeeds) (n k : Nat) (a : Axis) (t : Test) (x : Item F) :
    (stepResK fo doc c n k a t x).CutOf (stepRes fo doc n a t x) := cut_run fun _ => cut_if (cut_refl _)

theorem cut_eqK (fo : FloatOps F) (doc : Node) (k : Nat) {l l₀ r r₀ : Res F} (hl : l.CutOf l₀) (hr : r.CutOf r₀) :
    (eqResK fo doc k l r).CutOf (eqRes fo doc l₀ r₀) := by
  unfold eqResK
  split
  · split
    · exact cut_eqRes fo doc hl hr
    · exact cut_tooDeep
  · exact cut_eqRes fo doc hl hr

theorem cut_unionK (doc : Node) (k : Nat) (x : Item F) {l l₀ r r₀ : Res F} (hl : l.CutOf l₀) (hr : r.CutOf r₀) :
    (unionResK doc k x l r).CutOf (unionRes doc x l₀ r₀) := cut_if (cut_unionRes doc x hl hr)

section
set_option linter.unusedSectionVars false
variable (fo : FloatOps F) (doc : Node) (c : QNeeds) (vars : Str → Option (Item F)) (n : Nat)
  {dyn : Str → Except XErr (Nat → Item F → Res F)} {dyn₀ : Str → Except XErr (Item F → Res F)} (hdyn : ∀ s, CutDynK (dyn s) (dyn₀ s))
include hdyn

mutual
  theorem cut_eval : ∀ (e : Expr F) (k : Nat) (x : Item F), (evalK fo doc c vars n dyn e k x).CutOf (eval fo doc vars n dyn₀ e x)
    | .lit y, k, x => by simp only [evalK, eval]; exact cut_run fun _ => cut_refl _
    | .neg e, k, x => by
      simp only [evalK, eval]
      refine cut_run fun k => ?_
      rcases cut_first (cut_eval e k x) with h | h
      · rw [h]; exact cut_refl _
      · rw [h]; exact cut_stop
    | .slash l r, k, x => by
      simp only [evalK, eval]
      exact cut_run fun k => cut_bind (cut_eval l k x) fun y => cut_if (cut_eval r k _)
    | .dslash l r, k, x => by
      have ihr := cut_eval r
      simp only [evalK, eval]
      refine cut_run fun k => cut_bind (cut_eval l k x) fun y => cut_if ?_
      cases r <;> first | exact cut_step fo doc c n k _ _ _ | exact ihr k _
    | .union l r, k, x => by
      simp only [evalK, eval]
      exact cut_run fun k => cut_unionK doc k x (cut_eval l k x) (cut_eval r k x)
    | .eq l r, k, x => by
      simp only [evalK, eval]
      exact cut_run fun k => cut_eqK fo doc k (cut_eval l k x) (cut_eval r k x)
    | .ne l r, k, x => by
      simp only [evalK, eval]
      exact cut_run fun k => cut_need (cut_eval l k x) fun a => cut_need (cut_eval r k x) fun b => cut_refl _
    | .rel op l r, k, x => by
      simp only [evalK, eval]
      exact cut_run fun k => cut_need (cut_eval l k x) fun a => cut_need (cut_eval r k x) fun b => cut_refl _
    | .or l r, k, x => by
      simp only [evalK, eval]
      refine cut_run fun k => cut_need (cut_eval l k x) fun a => ?_
      split
      · exact cut_refl _
      · exact cut_need (cut_eval r k x) fun b => cut_refl _
    | .and l r, k, x => by
      simp only [evalK, eval]
      refine cut_run fun k => cut_need (cut_eval l k x) fun a => ?_
      split
      · exact cut_need (cut_eval r k x) fun b => cut_refl _
      · exact cut_refl _
    | .arith _ _ _, k, x => by simp only [evalK, eval]; exact cut_run fun _ => cut_refl _
    | .abs none, k, x => by simp only [evalK, eval]; exact cut_run fun k => cut_if (cut_refl _)
    | .abs (some r), k, x => by
      simp only [evalK, eval]
      exact cut_run fun k => cut_if (cut_bind (cut_refl _) fun y => cut_append (cut_refl _) (cut_if (cut_eval r k y)))
    | .absAll r, k, x => by
      simp only [evalK, eval]
      refine cut_run fun k => cut_if (cut_bind (cut_refl _) fun y => cut_append (cut_refl _) (cut_if (cut_append (cut_eval r k y) ?_)))
      cases Item.below doc y with
      | none => exact cut_refl _
      | some ys => exact cut_bindList (fun z => cut_eval r k _) _ _
    | .step a t, k, x => by simp only [evalK, eval]; exact cut_step fo doc c n k a t x
    | .test t, k, x => by simp only [evalK, eval]; exact cut_run fun _ => cut_refl _
    | .pred lhs ps, k, x => by
      simp only [evalK, eval]
      refine cut_run fun k => cut_pred (cut_eval lhs k x) (fun pos y => ?_) 1
      split
      · exact .inr rfl
      · exact cut_evalPreds ps pos k _
    | .dot, k, x => by simp only [evalK, eval]; exact cut_run fun _ => cut_refl _
    | .dotdot, k, x => by simp only [evalK, eval]; exact cut_run fun k => cut_if (cut_refl _)
    | .var v, k, x => by simp only [evalK, eval]; exact cut_run fun k => cut_refl _
    | .call f args, k, x => by
      simp only [evalK, eval]
      exact cut_run fun k => cut_callK fo doc c k hdyn x f args (cut_evalArgs args f 0 k x)
    | .seq es, k, x => by
      simp only [evalK, eval]
      exact cut_run fun k => cut_evalSeq es k x
  theorem cut_evalPreds : ∀ (ps : List (Expr F)) (pos k : Nat) (x : Item F),
      evalPredsK fo doc c vars n dyn pos ps k x = evalPreds fo doc vars n dyn₀ pos ps x ∨
        evalPredsK fo doc c vars n dyn pos ps k x = .inr (.err .recursion)
    | [], pos, k, x => by simp only [evalPredsK, evalPreds]; exact .inl trivial
    | p :: r, pos, k, x => by
      have ih := cut_evalPreds r pos k x
      simp only [evalPredsK, evalPreds]
      rcases cut_predHolds fo doc pos (cut_eval p k x) with h | h
      · rw [h]
        generalize predHolds fo doc pos (eval fo doc vars n dyn₀ p x) = b
        match b with
        | .inl true => exact ih
        | .inl false => exact .inl rfl
        | .inr _ => exact .inl rfl
      · rw [h]; exact .inr rfl
  theorem cut_evalArgs : ∀ (es : List (Expr F)) (f : Str) (i k : Nat) (x : Item F),
      All2 Res.CutOf (evalArgsK fo doc c vars n dyn f i es k x) (evalArgs fo doc vars n dyn₀ es x)
    | [], f, i, k, x => by simp only [evalArgsK, evalArgs]; exact .nil
    | e :: r, f, i, k, x => by
      simp only [evalArgsK, evalArgs]
      exact .cons (cut_eval e _ x) (cut_evalArgs r f (i + 1) k x)
  theorem cut_evalSeq : ∀ (es : List (Expr F)) (k : Nat) (x : Item F),
      (evalSeqK fo doc c vars n dyn es k x).CutOf (evalSeq fo doc vars n dyn₀ es x)
    | [], k, x => by simp only [evalSeqK, evalSeq]; exact cut_refl _
    | e :: r, k, x => by
      simp only [evalSeqK, evalSeq]
      exact cut_append (cut_eval e k x) (cut_evalSeq r k x)
end

end

theorem cut_evalN (fo : FloatOps F) (doc : Node) (c : QNeeds) (parse : Str → Except XErr (Expr F)) (vars : Str → Option (Item F)) :
    ∀ (n : Nat) (e : Expr F) (k : Nat) (x : Item F), (evalNK fo doc c parse vars n e k x).CutOf (evalN fo doc parse vars n e x)
  | 0, e, k, x => by
    unfold evalNK evalN
    refine cut_eval fo doc c vars 0 (fun s => ?_) e k x
    cases h : parse s with
    | error er => exact .inl ⟨er, rfl, rfl⟩
    | ok e' => exact .inr ⟨_, _, rfl, rfl, fun _ _ => cut_refl _⟩
  | n + 1, e, k, x => by
    unfold evalNK evalN
    refine cut_eval fo doc c vars (n + 1) (fun s => ?_) e k x
    cases h : parse s with
    | error er => exact .inl ⟨er, rfl, rfl⟩
    | ok e' => exact .inr ⟨_, _, rfl, rfl, fun k y => cut_evalN fo doc c parse vars n e' k y⟩

end Amara
