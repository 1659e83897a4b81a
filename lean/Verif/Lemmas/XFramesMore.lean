import Verif.Lemmas.XFrames
import Verif.Props.Frames
/-
Lemmas for C157: more room gives at least as much.
-/
namespace Amara

variable {F : Type}

/-! ### string values -/

theorem strvalK_more (c : Needs) :
    (∀ (x : Node) (k k' : Nat), k ≤ k' → (x.strvalK c k).isSome = true → (x.strvalK c k').isSome = true) ∧
    (∀ (xs : List Node) (k k' : Nat), k ≤ k' → (Node.strvalsK c k xs).isSome = true → (Node.strvalsK c k' xs).isSome = true) := by
  apply Node.induct
  case elem =>
    intro n as cs ih k k' hk h
    cases k with
    | zero => cases h
    | succ k =>
      obtain ⟨k', rfl⟩ : ∃ j, k' = j + 1 := ⟨k' - 1, by omega⟩
      exact ih k k' (by omega) h
  case text =>
    intro s k k' hk h
    cases k with
    | zero => cases h
    | succ k =>
      obtain ⟨k', rfl⟩ : ∃ j, k' = j + 1 := ⟨k' - 1, by omega⟩
      rw [Node.strvalK] at h ⊢
      split at h
      · cases h
      · rw [if_neg (by omega)]; rfl
  case nil => intro k k' hk h; rfl
  case cons =>
    intro x xs ih1 ih2 k k' hk h
    cases x with
    | elem n as cs =>
      rw [Node.strvalsK] at h ⊢
      split at h
      · cases h
      · rename_i s hs
        obtain ⟨s', hs'⟩ := Option.isSome_iff_exists.1 (ih1 k k' hk (by rw [hs]; rfl))
        rw [hs']
        simp only [Option.isSome_map] at h ⊢
        exact ih2 k k' hk h
    | text u =>
      rw [Node.strvalsK] at h ⊢
      split at h
      · cases h
      · rw [if_neg (by omega), Option.isSome_map]
        rw [Option.isSome_map] at h
        exact ih2 k k' hk h

theorem xmlValueK_more :
    (∀ (x : Node) (k k' : Nat), k ≤ k' → (x.xmlValueK k).isSome = true → (x.xmlValueK k').isSome = true) ∧
    (∀ (xs : List Node) (k k' : Nat), k ≤ k' → (Node.xmlValuesK k xs).isSome = true → (Node.xmlValuesK k' xs).isSome = true) := by
  apply Node.induct
  case elem =>
    intro n as cs ih k k' hk h
    cases k with
    | zero => cases h
    | succ k =>
      obtain ⟨k', rfl⟩ : ∃ j, k' = j + 1 := ⟨k' - 1, by omega⟩
      exact ih k k' (by omega) h
  case text =>
    intro s k k' hk h
    cases k with
    | zero => cases h
    | succ k =>
      obtain ⟨k', rfl⟩ : ∃ j, k' = j + 1 := ⟨k' - 1, by omega⟩
      rfl
  case nil => intro k k' hk h; rfl
  case cons =>
    intro x xs ih1 ih2 k k' hk h
    cases k with
    | zero => rw [Node.xmlValuesK] at h; cases h
    | succ k =>
      obtain ⟨k', rfl⟩ : ∃ j, k' = j + 1 := ⟨k' - 1, by omega⟩
      rw [Node.xmlValuesK] at h ⊢
      split at h
      · cases h
      · rename_i s hs
        obtain ⟨s', hs'⟩ := Option.isSome_iff_exists.1 (ih1 k k' (by omega) (by rw [hs]; rfl))
        rw [hs']
        simp only [Option.isSome_map] at h ⊢
        exact ih2 _ _ hk h

theorem strvalFits_more (doc : Node) (c : Needs) {k k' : Nat} (hk : k ≤ k') {x : Item F} (h : x.strvalFits doc c k = true) :
    x.strvalFits doc c k' = true := by
  cases x with
  | node p =>
    simp only [Item.strvalFits] at h ⊢
    split at h
    · exact (strvalK_more c).1 _ _ _ hk h
    · rfl
  | root => simp only [Item.strvalFits, decide_eq_true_eq] at h ⊢; omega
  | attr _ _ _ => simp only [Item.strvalFits, decide_eq_true_eq] at h ⊢; omega
  | _ => rfl

theorem convFits_more (doc : Node) (c : QNeeds) {k k' : Nat} (hk : k ≤ k') (f : Str) {x : Item F} (h : x.convFits doc c k f = true) :
    x.convFits doc c k' f = true := by
  unfold Item.convFits at h ⊢
  simp only [Bool.and_eq_true, decide_eq_true_eq, Bool.or_eq_true] at h ⊢
  exact ⟨by omega, h.2.imp id fun h => strvalFits_more doc _ (by omega) h⟩

theorem valueFits_more (doc : Node) {k k' : Nat} (hk : k ≤ k') {x : Item F} (h : x.valueFits doc k = true) : x.valueFits doc k' = true := by
  cases x with
  | node p =>
    simp only [Item.valueFits] at h ⊢
    split at h
    · exact xmlValueK_more.1 _ _ _ hk h
    · rfl
  | _ => rfl

theorem numberFits_more (doc : Node) {k k' : Nat} (hk : k ≤ k') {x : Item F} (h : numberFits doc k x = true) : numberFits doc k' x = true := by
  cases k with
  | zero => cases h
  | succ k =>
    obtain ⟨k', rfl⟩ : ∃ j, k' = j + 1 := ⟨k' - 1, by omega⟩
    simp only [numberFits] at h ⊢
    generalize (if x.isRoot = true then Node.elem [] [] [doc] else doc) = d at h ⊢
    cases k with
    | zero => cases d <;> cases h
    | succ k =>
      obtain ⟨k', rfl⟩ : ∃ j, k' = j + 1 := ⟨k' - 1, by omega⟩
      rw [Bool.not_eq_true'] at h ⊢
      cases hb : (d.descendantsK [] (k' + 1)).2 with
      | false => rfl
      | true =>
        have h1 := (descendantsK_ends.1 d [] (k' + 1) (by omega)).1 hb
        rw [(descendantsK_ends.1 d [] (k + 1) (by omega)).2 (by omega)] at h
        cases h

/-! ### conversions -/

theorem convFirst_more (doc : Node) (c : QNeeds) {k k' : Nat} (hk : k ≤ k') (f : Str) {a a' : Res F} (h : a.CutOf a') :
    (a.convFirst doc c k f).CutOf (a'.convFirst doc c k' f) := by
  rcases h with rfl | ⟨h1, ys, h2⟩
  · unfold Res.convFirst
    split
    · split
      · exact cut_tooDeep
      · rename_i h
        rw [if_neg (fun h' => h ⟨h'.1, by omega⟩)]
        exact cut_refl _
    · split
      · rename_i h
        rw [if_pos (convFits_more doc c hk f h)]
        exact cut_refl _
      · exact cut_tooDeep
  · rcases a with ⟨_ | ⟨x, xs⟩, t⟩
    · cases h1
      exact cut_trans (cut_convFirst doc c k f _) cut_stop
    · rcases a' with ⟨_ | ⟨y, zs⟩, t'⟩
      · cases h2
      · cases h1; cases h2
        simp only [Res.convFirst]
        split
        · rename_i h
          rw [if_pos (convFits_more doc c hk f h)]
          exact .inr ⟨rfl, List.cons_prefix_cons.2 ⟨rfl, List.prefix_append _ _⟩⟩
        · exact cut_tooDeep

theorem convAll_more (doc : Node) (c : QNeeds) {k k' : Nat} (hk : k ≤ k') (f : Str) {a a' : Res F} (h : a.CutOf a') :
    (a.convAll doc c k f).CutOf (a'.convAll doc c k' f) := by
  have key : ∀ (t t' : Tail) (ys : List (Item F)), ((ys = [] ∧ t = t') ∨ t = .err .recursion) → ∀ xs : List (Item F),
      (convItems doc c k f t xs).CutOf (convItems doc c k' f t' (xs ++ ys)) := by
    intro t t' ys ht xs
    induction xs with
    | nil =>
      rcases ht with ⟨rfl, rfl⟩ | rfl
      · exact cut_refl _
      · exact cut_stop
    | cons x r ih =>
      rw [List.cons_append, convItems, convItems]
      split
      · rename_i h
        rw [if_pos (convFits_more doc c hk f h)]
        rcases ih with h | ⟨h1, h2⟩
        · rw [h]; exact cut_refl _
        · exact .inr ⟨h1, List.cons_prefix_cons.2 ⟨rfl, h2⟩⟩
      · exact cut_tooDeep
  rcases h with rfl | ⟨h1, ys, h2⟩
  · have := key a.tail a.tail [] (.inl ⟨rfl, rfl⟩) a.items
    rwa [List.append_nil] at this
  · unfold Res.convAll
    rw [← h2]
    exact key _ _ ys (.inr h1) _

theorem all2_map_more {g g' : Res F → Res F} (hg : ∀ a a', a.CutOf a' → (g a).CutOf (g' a')) {rs rs' : List (Res F)} (hs : All2 Res.CutOf rs rs') :
    All2 Res.CutOf (rs.map g) (rs'.map g') := by
  induction hs with
  | nil => exact .nil
  | cons h1 _ ih => exact .cons (hg _ _ h1) ih

theorem convArgs_more (doc : Node) (c : QNeeds) {k k' : Nat} (hk : k ≤ k') (f : Str) {rs rs' : List (Res F)} (hs : All2 Res.CutOf rs rs') :
    All2 Res.CutOf (convArgs doc c k f rs) (convArgs doc c k' f rs') := by
  unfold convArgs
  split
  · exact all2_map_more (fun _ _ h => convAll_more doc c hk f h) hs
  · split
    · cases hs with
      | nil => exact .nil
      | cons h1 hs =>
        cases hs with
        | nil => exact .cons h1 .nil
        | cons h2 hs =>
          cases hs with
          | nil => exact .cons h1 (.cons (convFirst_more doc c hk f h2) .nil)
          | cons h3 hs => exact .cons h1 (.cons h2 (.cons h3 hs))
    · split
      · exact all2_map_more (fun _ _ h => convFirst_more doc c hk f h) hs
      · exact hs

/-- What an expression given as a text gives with fewer and with more calls. -/
def MoreDyn (d : Except XErr (Nat → Item F → Res F)) : Prop := ∀ g, d = .ok g → ∀ k k', k ≤ k' → ∀ x, (g k x).CutOf (g k' x)

theorem more_callK (fo : FloatOps F) (doc : Node) (c : QNeeds) {k k' : Nat} (hk : k ≤ k') {dyn : Str → Except XErr (Nat → Item F → Res F)}
    (hdyn : ∀ s, MoreDyn (dyn s)) (x : Item F) (m : Str) (es : List (Expr F)) {rs rs'} (hs : All2 Res.CutOf rs rs') :
    (callFnK fo doc c k dyn x m es rs).CutOf (callFnK fo doc c k' dyn x m es rs') := by
  have hnil : rs' = [] → rs = [] := by
    rintro rfl
    cases hs
    rfl
  have hnil' : rs = [] → rs' = [] := by
    rintro rfl
    cases hs
    rfl
  unfold callFnK
  split
  · exact cut_tooDeep
  · split
    · exact cut_tooDeep
    · rename_i h0 h1
      rw [if_neg (by omega), if_neg]
      · refine cut_call fo doc (fun s => ?_) x m es (convArgs_more doc c hk m hs)
        split
        · exact .inl rfl
        · rw [if_neg (by omega)]
          cases hd : dyn s with
          | error e => exact .inr (.inl ⟨e, rfl, rfl⟩)
          | ok g =>
            refine .inr (.inr ⟨_, _, rfl, rfl, fun y => ?_⟩)
            split
            · exact cut_tooDeep
            · show Res.CutOf (g (k - 1) y) (if k' - 1 < c.copy then Res.tooDeep else g (k' - 1) y)
              rw [if_neg (by omega)]
              exact hdyn s g hd _ _ (by omega) y
      · rintro ⟨e1, e2, e3⟩
        refine h1 ⟨e1, hnil e2, ?_⟩
        cases hb : x.convFits doc c k m with
        | false => rfl
        | true => rw [convFits_more doc c hk m hb] at e3; cases e3

theorem more_run {k k' : Nat} (hk : k ≤ k') {b b' : Nat → Res F} (h : ∀ k k', k ≤ k' → (b k).CutOf (b' k')) : (callK k b).CutOf (callK k' b') := by
  cases k with
  | zero => exact cut_tooDeep
  | succ k =>
    obtain ⟨k', rfl⟩ : ∃ j, k' = j + 1 := ⟨k' - 1, by omega⟩
    exact h k k' (by omega)

theorem more_if {k k' m : Nat} (hk : k ≤ k') {a a' : Res F} (h : a.CutOf a') : (if k < m then .tooDeep else a).CutOf (if k' < m then .tooDeep else a') := by
  split
  · exact cut_tooDeep
  · rw [if_neg (by omega)]; exact h

theorem more_step (fo : FloatOps F) (doc : Node) (c : QNeeds) (n : Nat) {k k' : Nat} (hk : k ≤ k') (a : Axis) (t : Test) (x : Item F) :
    (stepResK fo doc c n k a t x).CutOf (stepResK fo doc c n k' a t x) := more_run hk fun _ _ h => more_if h (cut_refl _)

theorem more_eqK (fo : FloatOps F) (doc : Node) {k k' : Nat} (hk : k ≤ k') {l l' r r' : Res F} (hl : l.CutOf l') (hr : r.CutOf r') :
    (eqResK fo doc k l r).CutOf (eqResK fo doc k' l' r') := by
  have hcut := cut_eqRes fo doc hl hr
  have hfirst : ∀ {a a' : Res F}, a.CutOf a' → (∃ x xs ys, a.items = x :: xs ∧ a'.items = x :: ys) ∨ a = a' ∨ a = ⟨[], .err .recursion⟩ := by
    intro a a' h
    rcases h with rfl | ⟨h1, ys, h2⟩
    · exact .inr (.inl rfl)
    · rcases a with ⟨_ | ⟨x, xs⟩, t⟩
      · cases h1; exact .inr (.inr rfl)
      · exact .inl ⟨x, xs, xs ++ ys, rfl, h2.symm⟩
  unfold eqResK
  split
  · rename_i i _ j _ hi hj
    split
    · rename_i hv
      have : eqResK fo doc k' l' r' = eqRes fo doc l' r' := by
        unfold eqResK
        split
        · rename_i i' _ _ _ hi' _
          have : i' = i := by
            rcases hfirst hl with ⟨x, xs, ys, e1, e2⟩ | rfl | rfl
            · rw [hi] at e1; rw [hi'] at e2; cases e1; cases e2; rfl
            · rw [hi] at hi'; cases hi'; rfl
            · cases hi
          rw [this, if_pos (valueFits_more doc hk hv)]
        · rfl
      show Res.CutOf _ (eqResK fo doc k' l' r')
      rw [this]
      exact hcut
    · exact cut_tooDeep
  · rename_i hno
    split
    · rename_i i' _ j' _ hi' hj'
      split
      · exact hcut
      · -- one of the operands was cut off before its first item
        have : eqRes fo doc l r = ⟨[], .err .recursion⟩ := by
          rcases hfirst hl with ⟨x, xs, ys, e1, e2⟩ | rfl | rfl
          · rcases hfirst hr with ⟨y, zs, ws, e3, e4⟩ | rfl | rfl
            · exact (hno _ _ _ _ e1 e3).elim
            · exact (hno _ _ _ _ e1 hj').elim
            · unfold eqRes
              rw [e1]
              rfl
          · rcases hfirst hr with ⟨y, zs, ws, e3, e4⟩ | rfl | rfl
            · exact (hno _ _ _ _ hi' e3).elim
            · exact (hno _ _ _ _ hi' hj').elim
            · unfold eqRes
              rw [hi']
              rfl
          · rfl
        rw [this]
        exact cut_stop
    · exact hcut

theorem more_unionK (doc : Node) {k k' : Nat} (hk : k ≤ k') (x : Item F) {l l' r r' : Res F} (hl : l.CutOf l') (hr : r.CutOf r') :
    (unionResK doc k x l r).CutOf (unionResK doc k' x l' r') := by
  unfold unionResK
  split
  · exact cut_tooDeep
  · rename_i h
    rw [if_neg]
    · exact cut_unionRes doc x hl hr
    · intro h'
      apply h
      cases hb : numberFits doc k x with
      | false => simp only [Bool.and_eq_true] at h'; simp [h'.1]
      | true => rw [numberFits_more doc hk hb] at h'; simp at h'

section
set_option linter.unusedSectionVars false
variable (fo : FloatOps F) (doc : Node) (c : QNeeds) (vars : Str → Option (Item F)) (n : Nat)
  {dyn : Str → Except XErr (Nat → Item F → Res F)} (hdyn : ∀ s, MoreDyn (dyn s))
include hdyn

mutual
  theorem more_eval : ∀ (e : Expr F) (k k' : Nat), k ≤ k' → ∀ (x : Item F),
      (evalK fo doc c vars n dyn e k x).CutOf (evalK fo doc c vars n dyn e k' x)
    | .lit y, k, k', hk, x => by simp only [evalK]; exact more_run hk fun _ _ _ => cut_refl _
    | .neg e, k, k', hk, x => by
      simp only [evalK]
      refine more_run hk fun k k' hk => ?_
      rcases cut_first (more_eval e k k' hk x) with h | h
      · rw [h]; exact cut_refl _
      · rw [h]; exact cut_stop
    | .slash l r, k, k', hk, x => by
      simp only [evalK]
      exact more_run hk fun k k' hk => cut_bind (more_eval l k k' hk x) fun y => more_if hk (more_eval r k k' hk _)
    | .dslash l r, k, k', hk, x => by
      have ihr := more_eval r
      simp only [evalK]
      refine more_run hk fun k k' hk => cut_bind (more_eval l k k' hk x) fun y => more_if hk ?_
      cases r <;> first | exact more_step fo doc c n hk _ _ _ | exact ihr k k' hk _
    | .union l r, k, k', hk, x => by
      simp only [evalK]
      exact more_run hk fun k k' hk => more_unionK doc hk x (more_eval l k k' hk x) (more_eval r k k' hk x)
    | .eq l r, k, k', hk, x => by
      simp only [evalK]
      exact more_run hk fun k k' hk => more_eqK fo doc hk (more_eval l k k' hk x) (more_eval r k k' hk x)
    | .ne l r, k, k', hk, x => by
      simp only [evalK]
      exact more_run hk fun k k' hk => cut_need (more_eval l k k' hk x) fun a => cut_need (more_eval r k k' hk x) fun b => cut_refl _
    | .rel op l r, k, k', hk, x => by
      simp only [evalK]
      exact more_run hk fun k k' hk => cut_need (more_eval l k k' hk x) fun a => cut_need (more_eval r k k' hk x) fun b => cut_refl _
    | .or l r, k, k', hk, x => by
      simp only [evalK]
      refine more_run hk fun k k' hk => cut_need (more_eval l k k' hk x) fun a => ?_
      split
      · exact cut_refl _
      · exact cut_need (more_eval r k k' hk x) fun b => cut_refl _
    | .and l r, k, k', hk, x => by
      simp only [evalK]
      refine more_run hk fun k k' hk => cut_need (more_eval l k k' hk x) fun a => ?_
      split
      · exact cut_need (more_eval r k k' hk x) fun b => cut_refl _
      · exact cut_refl _
    | .arith _ _ _, k, k', hk, x => by simp only [evalK]; exact more_run hk fun _ _ _ => cut_refl _
    | .abs none, k, k', hk, x => by simp only [evalK]; exact more_run hk fun k k' hk => more_if hk (cut_refl _)
    | .abs (some r), k, k', hk, x => by
      simp only [evalK]
      exact more_run hk fun k k' hk => more_if hk (cut_bind (cut_refl _) fun y => cut_append (cut_refl _) (more_if hk (more_eval r k k' hk y)))
    | .absAll r, k, k', hk, x => by
      simp only [evalK]
      refine more_run hk fun k k' hk => more_if hk (cut_bind (cut_refl _) fun y =>
        cut_append (cut_refl _) (more_if hk (cut_append (more_eval r k k' hk y) ?_)))
      cases Item.below doc y with
      | none => exact cut_refl _
      | some ys => exact cut_bindList (fun z => more_eval r k k' hk _) _ _
    | .step a t, k, k', hk, x => by simp only [evalK]; exact more_step fo doc c n hk a t x
    | .test t, k, k', hk, x => by simp only [evalK]; exact more_run hk fun _ _ _ => cut_refl _
    | .pred lhs ps, k, k', hk, x => by
      simp only [evalK]
      refine more_run hk fun k k' hk => cut_pred (more_eval lhs k k' hk x) (fun pos y => ?_) 1
      split
      · exact .inr rfl
      · rw [if_neg (show ¬ k' < c.copy by omega)]
        exact more_evalPreds ps pos k k' hk _
    | .dot, k, k', hk, x => by simp only [evalK]; exact more_run hk fun _ _ _ => cut_refl _
    | .dotdot, k, k', hk, x => by
      simp only [evalK]
      exact more_run hk fun _ _ hk => more_if hk (cut_refl _)
    | .var v, k, k', hk, x => by simp only [evalK]; exact more_run hk fun k k' hk => cut_refl _
    | .call f args, k, k', hk, x => by
      simp only [evalK]
      exact more_run hk fun k k' hk => more_callK fo doc c hk hdyn x f args (more_evalArgs args f 0 k k' hk x)
    | .seq es, k, k', hk, x => by
      simp only [evalK]
      exact more_run hk fun k k' hk => more_evalSeq es k k' hk x
  theorem more_evalPreds : ∀ (ps : List (Expr F)) (pos k k' : Nat), k ≤ k' → ∀ (x : Item F),
      evalPredsK fo doc c vars n dyn pos ps k x = evalPredsK fo doc c vars n dyn pos ps k' x ∨
        evalPredsK fo doc c vars n dyn pos ps k x = .inr (.err .recursion)
    | [], pos, k, k', hk, x => by simp only [evalPredsK]; exact .inl trivial
    | p :: r, pos, k, k', hk, x => by
      have ih := more_evalPreds r pos k k' hk x
      simp only [evalPredsK]
      rcases cut_predHolds fo doc pos (more_eval p k k' hk x) with h | h
      · rw [h]
        generalize predHolds fo doc pos (evalK fo doc c vars n dyn p k' x) = b
        match b with
        | .inl true => exact ih
        | .inl false => exact .inl rfl
        | .inr _ => exact .inl rfl
      · rw [h]; exact .inr rfl
  theorem more_evalArgs : ∀ (es : List (Expr F)) (f : Str) (i k k' : Nat), k ≤ k' → ∀ (x : Item F),
      All2 Res.CutOf (evalArgsK fo doc c vars n dyn f i es k x) (evalArgsK fo doc c vars n dyn f i es k' x)
    | [], f, i, k, k', hk, x => by simp only [evalArgsK]; exact .nil
    | e :: r, f, i, k, k', hk, x => by
      simp only [evalArgsK]
      exact .cons (more_eval e _ _ (by omega) x) (more_evalArgs r f (i + 1) k k' hk x)
  theorem more_evalSeq : ∀ (es : List (Expr F)) (k k' : Nat), k ≤ k' → ∀ (x : Item F),
      (evalSeqK fo doc c vars n dyn es k x).CutOf (evalSeqK fo doc c vars n dyn es k' x)
    | [], k, k', hk, x => by simp only [evalSeqK]; exact cut_refl _
    | e :: r, k, k', hk, x => by
      simp only [evalSeqK]
      exact cut_append (more_eval e k k' hk x) (more_evalSeq r k k' hk x)
end

end

theorem more_evalN (fo : FloatOps F) (doc : Node) (c : QNeeds) (parse : Str → Except XErr (Expr F)) (vars : Str → Option (Item F)) :
    ∀ (n : Nat) (e : Expr F) (k k' : Nat), k ≤ k' → ∀ (x : Item F),
      (evalNK fo doc c parse vars n e k x).CutOf (evalNK fo doc c parse vars n e k' x)
  | 0, e, k, k', hk, x => by
    unfold evalNK
    refine more_eval fo doc c vars 0 (fun s => ?_) e k k' hk x
    cases h : parse s with
    | error er => intro g hg; cases hg
    | ok e' => intro g hg; cases hg; exact fun _ _ _ _ => cut_refl _
  | n + 1, e, k, k', hk, x => by
    unfold evalNK
    refine more_eval fo doc c vars (n + 1) (fun s => ?_) e k k' hk x
    cases h : parse s with
    | error er => intro g hg; cases hg
    | ok e' => intro g hg; cases hg; exact fun j j' hj y => more_evalN fo doc c parse vars n e' j j' hj y

end Amara
