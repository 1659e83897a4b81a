import Verif.Spec.Rewrite
import Verif.Props.XPathErrors
import Verif.Props.XParse
/-
C142: rewriting queries.
-/
namespace Amara

variable {F : Type}

section
variable (fo : FloatOps F) (doc : Node) (vars : Str → Option (Item F)) (n : Nat) (dyn : Str → Except XErr (Item F → Res F))

local notation "ev" => eval fo doc vars n dyn

theorem orElse_true {x : Item F} (hx : x.truthy fo doc = true) (y : Item F) : (y.orElse fo doc x).truthy fo doc = true := by
  unfold Item.orElse; split <;> assumption

theorem compute_truthy {x : Item F} (hx : x.truthy fo doc = true) (t : Test) : ∀ y ∈ t.compute doc x, y.truthy fo doc = true := by
  intro y hy
  have : y = x := by
    unfold Test.compute at hy
    split at hy
    · simpa using hy
    · split at hy
      · split at hy
        · split at hy
          · simpa using hy
          · simp at hy
        · simp at hy
      · simp at hy
    · split at hy
      · simpa using hy
      · simp at hy
    · split at hy
      · simpa using hy
      · simp at hy
  rw [this]; exact hx

theorem visit_truthy {x : Item F} (hx : x.truthy fo doc = true) (t : Test) (cs : List (Item F)) :
    ∀ y ∈ visit fo doc t x cs, y.truthy fo doc = true := by
  intro y hy
  obtain ⟨c, _, hy⟩ := List.mem_flatMap.1 hy
  exact compute_truthy fo doc (orElse_true fo doc hx c) t y hy

theorem root_truthy : (Item.root : Item F).truthy fo doc = true := rfl

theorem attr_truthy (p : Path) (k v : Str) : (Item.attr p k v : Item F).truthy fo doc = true := rfl

theorem getRoot_truthy (x : Item F) : ∀ y ∈ (x.getRoot doc).items, y.truthy fo doc = true := by
  intro y hy
  unfold Item.getRoot at hy
  split at hy
  · rw [show y = .root by simpa [Res.one] using hy]; rfl
  · split at hy
    · rw [show y = .root by simpa [Res.one] using hy]; rfl
    · cases hy

theorem append_truthy {a b : Res F} (ha : ∀ y ∈ a.items, y.truthy fo doc = true) (hb : ∀ y ∈ b.items, y.truthy fo doc = true) :
    ∀ y ∈ (Res.append a b).items, y.truthy fo doc = true := by
  intro y hy
  unfold Res.append at hy
  split at hy
  · rcases List.mem_append.1 hy with h | h
    · exact ha y h
    · exact hb y h
  · exact ha y hy

theorem bindList_truthy {f : Item F → Res F} (t : Tail) (xs : List (Item F)) (h : ∀ x ∈ xs, ∀ y ∈ (f x).items, y.truthy fo doc = true) :
    ∀ y ∈ (Res.bindList f t xs).items, y.truthy fo doc = true := by
  induction xs with
  | nil => intro y hy; cases hy
  | cons x xs ih => exact append_truthy fo doc (h x (by simp)) (ih fun x' hx' => h x' (by simp [hx']))

theorem stepRes_truthy (a : Axis) (t : Test) {x : Item F} (hx : x.truthy fo doc = true) :
    ∀ y ∈ (stepRes fo doc n a t x).items, y.truthy fo doc = true := by
  have hv := visit_truthy fo doc hx t
  have hc := compute_truthy fo doc hx t
  have hr := getRoot_truthy fo doc x
  cases a <;> simp only [stepRes]
  · exact hc
  · split
    · intro y hy; cases hy
    · exact hv _
  · split
    · split
      · intro y hy
        obtain ⟨kv, _, rfl⟩ := List.mem_map.1 hy
        rfl
      · intro y hy; cases hy
    · intro y hy; cases hy
  · split
    · intro y hy; rw [show y = .root by simpa [Res.one] using hy]; rfl
    · exact append_truthy fo doc (hv _) hr
    · exact append_truthy fo doc (hv _) hr
    · intro y hy; cases hy
  · refine append_truthy fo doc hc ?_
    split
    · intro y hy; cases hy
    · intro y hy; cases hy
    · exact hv _
  · split
    · intro y hy; cases hy
    · exact hv _
  · refine append_truthy fo doc hc ?_
    split
    · intro y hy; cases hy
    · exact hv _
  · split
    · intro y hy; cases hy
    · intro y hy; cases hy
    · exact hv _
  · split
    · intro y hy; cases hy
    · intro y hy; cases hy
    · exact hv _
  · split
    · intro y hy; cases hy
    · exact hr
    · exact hv _
  · split <;> (intro y hy; cases hy)
  · split
    · intro y hy; cases hy
    · intro y hy; cases hy
    · exact hv _

/-- Paths yield items that count as true. -/
theorem isPath_truthy {e : Expr F} (he : IsPath e) : ∀ {x : Item F}, x.truthy fo doc = true → ∀ y ∈ (ev e x).items, y.truthy fo doc = true := by
  induction he with
  | step a t => intro x hx; rw [eval]; exact stepRes_truthy fo doc n a t hx
  | dot => intro x hx y hy; rw [eval] at hy; rw [show y = x by simpa [Res.one] using hy]; exact hx
  | root => intro x hx; rw [eval]; exact getRoot_truthy fo doc x
  | slash _ ih =>
    intro x hx
    rw [eval, Res.bind]
    exact bindList_truthy fo doc _ _ fun z _ => ih (orElse_true fo doc hx z)
  | pred ps _ ih =>
    intro x hx y hy
    rw [eval] at hy
    exact ih hx y (predLoop_sub _ _ _ _ y hy)
  | @seq es _ ih =>
    intro x hx
    rw [eval]
    have : ∀ es : List (Expr F), (∀ e ∈ es, ∀ y ∈ (ev e x).items, y.truthy fo doc = true) →
        ∀ y ∈ (evalSeq fo doc vars n dyn es x).items, y.truthy fo doc = true := by
      intro es
      induction es with
      | nil => intro _ y hy; rw [evalSeq] at hy; cases hy
      | cons e es ih' =>
        intro h
        rw [evalSeq]
        exact append_truthy fo doc (h e (by simp)) (ih' fun e' h' => h e' (by simp [h']))
    exact this es fun e h => ih e h hx

/-! ### tests -/

/-- One boolean, or nothing and an exception. -/
def BoolRes (r : Res F) : Prop := (∃ b, r = .one (.bool b)) ∨ ∃ t, t ≠ .done ∧ r = ⟨[], t⟩

theorem boolRes_fail (e : XErr) : BoolRes (.fail e : Res F) := .inr ⟨.err e, by simp, rfl⟩

theorem first_stop_ne {r : Res F} {t : Tail} (h : r.first = .stop t) : t ≠ .done := by
  rintro rfl
  obtain ⟨is, t⟩ := r
  cases is <;> cases t <;> cases h

theorem boolRes_need {a : Res F} {f : Item F → Res F} (hf : ∀ y, BoolRes (f y)) : BoolRes (a.need f) := by
  unfold Res.need
  split
  · exact hf _
  · exact boolRes_fail _
  · rename_i t h; exact .inr ⟨t, first_stop_ne h, rfl⟩

theorem boolRes_default {a : Res F} {d : Item F} {f : Item F → Res F} (hf : ∀ y, BoolRes (f y)) : BoolRes (a.orDefault d f) := by
  unfold Res.orDefault
  split
  · exact hf _
  · exact hf _
  · rename_i t h; exact .inr ⟨t, first_stop_ne h, rfl⟩

theorem need_need (a : Res F) (f g : Item F → Res F) : (a.need f).need g = a.need fun y => (f y).need g := by
  unfold Res.need
  cases h : a.first with
  | got y => rfl
  | empty => rfl
  | stop t => simp only; rw [first_stop (first_stop_ne h)]

theorem boolRes_need_one {a : Res F} (ha : BoolRes a) : a.need .one = a := by
  rcases ha with ⟨b, rfl⟩ | ⟨t, ht, rfl⟩
  · rfl
  · rw [Res.need, first_stop ht]

theorem call_true (x : Item F) : ev trueE x = .one (.bool true) := by
  rw [trueE, eval, evalArgs]
  exact (callFn_names fo doc dyn x [] []).2.2.2.2.2.2.2.2.2.1

theorem call_false (x : Item F) : ev falseE x = .one (.bool false) := by
  rw [falseE, eval, evalArgs]
  exact (callFn_names fo doc dyn x [] []).2.2.2.2.2.2.2.2.2.2

theorem call_not (e : Expr F) (x : Item F) :
    ev (notE e) x = (ev e x).orDefault (.bool false) fun y => .one (.bool (!y.toBool fo doc)) := by
  rw [notE, eval, evalArgs, evalArgs]
  exact (callFn_names fo doc dyn x [e] [ev e x]).2.2.2.2.1

theorem call_boolean (e : Expr F) (x : Item F) :
    ev (booleanE e) x = (ev e x).orDefault (.str []) fun y => .one (.bool (y.toBool fo doc)) := by
  rw [booleanE, eval, evalArgs, evalArgs]
  exact (callFn_names fo doc dyn x [e] [ev e x]).2.2.2.1

theorem truthy_bool (b : Bool) : (Item.bool b : Item F).truthy fo doc = b := rfl
theorem toBool_bool (b : Bool) : (Item.bool b : Item F).toBool fo doc = b := rfl

theorem and_true {l r : Expr F} {x : Item F} (h : ev l x = .one (.bool true)) : ev (.and l r) x = (ev r x).need .one := by
  rw [eval, h]; rfl
theorem and_false {l r : Expr F} {x : Item F} (h : ev l x = .one (.bool false)) : ev (.and l r) x = .one (.bool false) := by
  rw [eval, h]; rfl
theorem and_stop {l r : Expr F} {x : Item F} {t : Tail} (ht : t ≠ .done) (h : ev l x = ⟨[], t⟩) : ev (.and l r) x = ⟨[], t⟩ := by
  rw [eval, h, Res.need, first_stop ht]
theorem or_true {l r : Expr F} {x : Item F} (h : ev l x = .one (.bool true)) : ev (.or l r) x = .one (.bool true) := by
  rw [eval, h]; rfl
theorem or_false {l r : Expr F} {x : Item F} (h : ev l x = .one (.bool false)) : ev (.or l r) x = (ev r x).need .one := by
  rw [eval, h]; rfl
theorem or_stop {l r : Expr F} {x : Item F} {t : Tail} (ht : t ≠ .done) (h : ev l x = ⟨[], t⟩) : ev (.or l r) x = ⟨[], t⟩ := by
  rw [eval, h, Res.need, first_stop ht]
theorem not_one {e : Expr F} {x : Item F} {b : Bool} (h : ev e x = .one (.bool b)) : ev (notE e) x = .one (.bool !b) := by
  rw [call_not, h]; rfl
theorem not_stop {e : Expr F} {x : Item F} {t : Tail} (ht : t ≠ .done) (h : ev e x = ⟨[], t⟩) : ev (notE e) x = ⟨[], t⟩ := by
  rw [call_not, h, Res.orDefault, first_stop ht]

theorem isTest_bool {e : Expr F} (he : IsTest e) (x : Item F) : BoolRes (ev e x) := by
  induction he with
  | eq l r =>
    rw [eval, eqRes]
    split
    · split
      · exact .inl ⟨_, rfl⟩
      · rename_i h; exact .inr ⟨_, h, rfl⟩
    · split
      · exact .inl ⟨_, rfl⟩
      · split
        · exact .inl ⟨_, rfl⟩
        · rename_i h; exact .inr ⟨_, h, rfl⟩
      · rename_i t h h'; exact .inr ⟨t, h, rfl⟩
  | ne l r => rw [eval]; exact boolRes_need fun _ => boolRes_need fun _ => .inl ⟨_, rfl⟩
  | rel op l r =>
    rw [eval]
    refine boolRes_need fun _ => boolRes_need fun _ => ?_
    split
    · exact .inl ⟨_, rfl⟩
    · exact boolRes_fail _
  | true => exact .inl ⟨_, call_true ..⟩
  | false => exact .inl ⟨_, call_false ..⟩
  | not e => rw [call_not]; exact boolRes_default fun _ => .inl ⟨_, rfl⟩
  | boolean e => rw [call_boolean]; exact boolRes_default fun _ => .inl ⟨_, rfl⟩
  | and _ _ ih1 ih2 =>
    rcases ih1 with ⟨b, h⟩ | ⟨t, ht, h⟩
    · cases b
      · exact .inl ⟨_, and_false fo doc vars n dyn h⟩
      · rw [and_true fo doc vars n dyn h, boolRes_need_one ih2]; exact ih2
    · exact .inr ⟨t, ht, and_stop fo doc vars n dyn ht h⟩
  | or _ _ ih1 ih2 =>
    rcases ih1 with ⟨b, h⟩ | ⟨t, ht, h⟩
    · cases b
      · rw [or_false fo doc vars n dyn h, boolRes_need_one ih2]; exact ih2
      · exact .inl ⟨_, or_true fo doc vars n dyn h⟩
    · exact .inr ⟨t, ht, or_stop fo doc vars n dyn ht h⟩

theorem boolRes_notNumber {r : Res F} (h : BoolRes r) : NotNumber r.items := by
  rcases h with ⟨b, rfl⟩ | ⟨t, _, rfl⟩ <;> trivial

theorem predHolds_stop {r : Res F} {t : Tail} (ht : t ≠ .done) (h : r = ⟨[], t⟩) (k : Nat) : predHolds fo doc k r = .inr t := by
  rw [h, predHolds, first_stop ht]

theorem evalPreds_append (ps qs : List (Expr F)) (k : Nat) (x : Item F) :
    evalPreds fo doc vars n dyn k (ps ++ qs) x = match evalPreds fo doc vars n dyn k ps x with
      | .inl true => evalPreds fo doc vars n dyn k qs x
      | v => v := by
  induction ps with
  | nil => rw [List.nil_append, evalPreds.eq_1]
  | cons p ps ih =>
    rw [List.cons_append, evalPreds, evalPreds, ih]
    cases predHolds fo doc k (ev p x) with
    | inr t => rfl
    | inl b => cases b <;> rfl

theorem evalPreds_mid (ps : List (Expr F)) {qs qs' : List (Expr F)} (k : Nat) {x : Item F}
    (h : evalPreds fo doc vars n dyn k qs x = evalPreds fo doc vars n dyn k qs' x) :
    evalPreds fo doc vars n dyn k (ps ++ qs) x = evalPreds fo doc vars n dyn k (ps ++ qs') x := by
  rw [evalPreds_append, evalPreds_append, h]

theorem evalSeq_append (es fs : List (Expr F)) (x : Item F) :
    evalSeq fo doc vars n dyn (es ++ fs) x = .append (evalSeq fo doc vars n dyn es x) (evalSeq fo doc vars n dyn fs x) := by
  induction es with
  | nil =>
    rw [List.nil_append, evalSeq.eq_1, append_done (a := Res.nil) rfl]
    rfl
  | cons e es ih => rw [List.cons_append, evalSeq, evalSeq, ih, append_assoc]

theorem append_nil_right (a : Res F) : Res.append a Res.nil = a := by
  by_cases h : a.tail = .done
  · rw [append_done h]; obtain ⟨i, t⟩ := a; cases h; simp [Res.nil]
  · rw [append_stop h]

/-- `for x in a; b` when `a` may raise. -/
theorem bind_append_any (a b : Res F) (f : Item F → Res F) : (Res.append a b).bind f = Res.append (a.bind f) (b.bind f) := by
  by_cases h : a.tail = .done
  · exact bind_append a b f h
  · rw [append_stop h, append_stop]
    rw [Res.bind]
    have : ∀ xs : List (Item F), (Res.bindList f a.tail xs).tail ≠ .done := by
      intro xs
      induction xs with
      | nil => exact h
      | cons x xs ih =>
        rw [Res.bindList]
        by_cases hx : (f x).tail = .done
        · rw [append_done hx]; exact ih
        · rw [append_stop hx]; exact hx
    exact this _

theorem bind_congr {a : Res F} {f g : Item F → Res F} (h : ∀ y ∈ a.items, f y = g y) : a.bind f = a.bind g :=
  bindList_congr _ _ h

theorem bind_to_one (a : Res F) : a.bind .one = a := by
  obtain ⟨xs, t⟩ := a
  rw [Res.bind]
  simp only
  induction xs with
  | nil => rfl
  | cons x xs ih => rw [Res.bindList, ih, append_done rfl]; rfl

theorem evalArgs_append (as bs : List (Expr F)) (x : Item F) :
    evalArgs fo doc vars n dyn (as ++ bs) x = evalArgs fo doc vars n dyn as x ++ evalArgs fo doc vars n dyn bs x := by
  induction as with
  | nil => rfl
  | cons a as ih => rw [List.cons_append, evalArgs, evalArgs, ih]; rfl

/-- Only `substring` looks at its arguments as expressions. -/
theorem callFn_args {f : Str} (hf : f ≠ "substring".toList) (as bs : List (Expr F)) (x : Item F) (rs : List (Res F)) :
    callFn fo doc dyn x f as rs = callFn fo doc dyn x f bs rs := by
  simp only [callFn, if_neg hf]

theorem isJustNode_false {r : Expr F} (h : ∀ ax, r ≠ .step ax .node) : r.isJustNode = false := by
  unfold Expr.isJustNode
  split
  · exact absurd rfl (h _)
  · rfl

/-- All laws hold at every item that counts as true. -/
theorem rewrites_eval {e f : Expr F} (h : Rewrites e f) : ∀ x : Item F, x.truthy fo doc = true → ev e x = ev f x := by
  have T := fun {t : Expr F} (ht : IsTest t) (x : Item F) => isTest_bool fo doc vars n dyn ht x
  have oe := fun {x : Item F} (hx : x.truthy fo doc = true) (y : Item F) => orElse_true fo doc hx y
  induction h with
  | refl e => intro x _; rfl
  | symm _ ih => intro x hx; exact (ih x hx).symm
  | trans _ _ ih1 ih2 => intro x hx; exact (ih1 x hx).trans (ih2 x hx)
  | seqOne e => intro x hx; rw [eval, evalSeq, evalSeq, append_nil_right]
  | seqFlat es fs gs =>
    intro x hx
    rw [eval, eval, evalSeq_append, evalSeq, eval, List.append_assoc, evalSeq_append, evalSeq_append]
  | seqPath es r =>
    intro x hx
    rw [eval, eval, eval]
    induction es with
    | nil => rfl
    | cons e es ih =>
      rw [evalSeq, bind_append_any, ih, List.map_cons, evalSeq, eval]
  | dotPath e =>
    intro x hx
    rw [eval, eval, Res.bind, Res.one]
    simp only [Res.bindList]
    rw [show x.orElse fo doc x = x by unfold Item.orElse; split <;> rfl]
    exact append_nil_right _
  | @pathDot e he =>
    intro x hx
    rw [eval]
    rw [bind_congr (g := .one)]
    · exact bind_to_one _
    · intro y hy
      rw [eval, Item.orElse, if_pos (isPath_truthy fo doc vars n dyn he hx y hy)]
  | pathAssoc a c hb =>
    intro x hx
    rw [eval, eval, eval]
    rw [show ((ev a x).bind fun y => ev _ (y.orElse fo doc x)) = Res.bindList _ _ _ from rfl, bindList_bind]
    refine bindList_congr _ _ fun y _ => ?_
    rw [eval]
    refine bind_congr fun z hz => ?_
    have := isPath_truthy fo doc vars n dyn hb (oe hx y) z hz
    rw [Item.orElse, Item.orElse, if_pos this, if_pos this]
  | absPath b ha hn =>
    intro x hx
    rw [eval, eval, eval]
    rw [show ((x.getRoot doc).bind fun y => Res.append _ (ev _ y)) = Res.bindList _ _ _ from rfl, bindList_bind]
    refine bindList_congr _ _ fun y hy => ?_
    rw [isJustNode_false hn, show (Expr.slash _ b).isJustNode = false from rfl]
    simp only [Bool.false_eq_true, if_false]
    rw [append_done (a := Res.nil) rfl, append_done (a := Res.nil) rfl, eval]
    simp only [Res.nil, List.nil_append]
    refine bind_congr fun z hz => ?_
    have := isPath_truthy fo doc vars n dyn ha (getRoot_truthy fo doc x y hy) z hz
    rw [Item.orElse, Item.orElse, if_pos this, if_pos this]
  | deepStep l a t => intro x hx; rw [eval, eval]; refine bind_congr fun y _ => ?_; rw [eval]
  | predTrue e =>
    intro x hx
    rw [eval]
    have : ∀ (k : Nat) (y : Item F), evalPreds fo doc vars n dyn k [trueE] y = .inl true := by
      intro k y; rw [evalPreds, call_true]; rfl
    simp only [this]
    obtain ⟨xs, t⟩ := ev e x
    simp only
    generalize 1 = k
    induction xs generalizing k with
    | nil => rfl
    | cons y ys ih => rw [predLoop, ih]; rfl
  | predTwice e ps p qs =>
    intro x hx
    rw [eval, eval]
    refine predLoop_congr _ _ (fun k y _ => evalPreds_mid fo doc vars n dyn ps k ?_) _
    rw [evalPreds, evalPreds]
    cases predHolds fo doc k (ev p (y.orElse fo doc x)) with
    | inr t => rfl
    | inl b => cases b <;> rfl
  | @predNest e ps qs he hq =>
    intro x hx
    rw [eval, eval, eval]
    have h1 := predLoop_then (fun k y => evalPreds fo doc vars n dyn k ps (y.orElse fo doc x))
      (fun y => evalPreds fo doc vars n dyn 1 qs (y.orElse fo doc x)) (ev e x).tail (ev e x).items 1 1
    have h2 : ∀ k y, evalPreds fo doc vars n dyn k qs y = evalPreds fo doc vars n dyn 1 qs y := fun k y =>
      evalPreds_pos fo doc vars n dyn qs y (fun q h => boolRes_notNumber (T (hq q h) y)) k 1
    refine Eq.trans (predLoop_congr _ _ (fun k y _ => h2 k _) 1) (Eq.trans h1.symm (predLoop_congr _ _ (fun k y _ => ?_) 1))
    rw [evalPreds_append, h2 k]
    rcases evalPreds fo doc vars n dyn k ps (y.orElse fo doc x) with b | t
    · cases b <;> rfl
    · rfl
  | predAnd e ps qs hp hq =>
    intro x hx
    rw [eval, eval]
    refine predLoop_congr _ _ (fun k y _ => evalPreds_mid fo doc vars n dyn ps k ?_) _
    rw [evalPreds, evalPreds, evalPreds]
    rcases T hp (y.orElse fo doc x) with ⟨b, h⟩ | ⟨t, ht, h⟩
    · cases b
      · rw [and_false fo doc vars n dyn h, h]; rfl
      · rw [and_true fo doc vars n dyn h, boolRes_need_one (T hq _), h]; rfl
    · rw [and_stop fo doc vars n dyn ht h, h, predHolds_stop fo doc ht rfl]
  | notNot e =>
    intro x hx
    rw [call_not, call_not, call_boolean]
    unfold Res.orDefault
    cases h : (ev e x).first with
    | got y => simp [Res.one, Res.first, toBool_bool]
    | empty => rfl
    | stop t => simp only; rw [first_stop (first_stop_ne h)]
  | boolTest ht =>
    intro x hx
    rw [call_boolean]
    rcases T ht x with ⟨b, h⟩ | ⟨t, ht, h⟩
    · rw [h]; rfl
    · rw [h, Res.orDefault, first_stop ht]
  | andAssoc a b c =>
    intro x hx
    rw [eval, eval, eval, eval, need_need]
    congr 1
    funext y
    by_cases hy : y.truthy fo doc = true
    · rw [if_pos hy, if_pos hy, need_need, need_need]
      congr 1
      funext z
      show (if z.truthy fo doc = true then (ev c x).need .one else .one z) = _
      split
      · rw [need_need]; rfl
      · rfl
    · rw [if_neg hy, if_neg hy]
      exact if_neg hy
  | orAssoc a b c =>
    intro x hx
    rw [eval, eval, eval, eval, need_need]
    congr 1
    funext y
    by_cases hy : y.truthy fo doc = true
    · rw [if_pos hy, if_pos hy]
      exact if_pos hy
    · rw [if_neg hy, if_neg hy, need_need, need_need]
      congr 1
      funext z
      show (if z.truthy fo doc = true then .one z else (ev c x).need .one) = _
      split
      · rfl
      · rw [need_need]; rfl
  | trueAnd ht => intro x hx; rw [and_true fo doc vars n dyn (call_true fo doc vars n dyn x), boolRes_need_one (T ht x)]
  | andTrue ht =>
    intro x hx
    rcases T ht x with ⟨b, h⟩ | ⟨t, ht, h⟩
    · cases b
      · rw [and_false fo doc vars n dyn h, h]
      · rw [and_true fo doc vars n dyn h, call_true, h]; rfl
    · rw [and_stop fo doc vars n dyn ht h, h]
  | falseOr ht => intro x hx; rw [or_false fo doc vars n dyn (call_false fo doc vars n dyn x), boolRes_need_one (T ht x)]
  | orFalse ht =>
    intro x hx
    rcases T ht x with ⟨b, h⟩ | ⟨t, ht, h⟩
    · cases b
      · rw [or_false fo doc vars n dyn h, call_false, h]; rfl
      · rw [or_true fo doc vars n dyn h, h]
    · rw [or_stop fo doc vars n dyn ht h, h]
  | andSelf ht =>
    intro x hx
    rcases T ht x with ⟨b, h⟩ | ⟨t, ht, h⟩
    · cases b
      · rw [and_false fo doc vars n dyn h, h]
      · rw [and_true fo doc vars n dyn h, h]; rfl
    · rw [and_stop fo doc vars n dyn ht h, h]
  | orSelf ht =>
    intro x hx
    rcases T ht x with ⟨b, h⟩ | ⟨t, ht, h⟩
    · cases b
      · rw [or_false fo doc vars n dyn h, h]; rfl
      · rw [or_true fo doc vars n dyn h, h]
    · rw [or_stop fo doc vars n dyn ht h, h]
  | @notAnd p q hp hq =>
    intro x hx
    rcases T hp x with ⟨b, h⟩ | ⟨t, ht, h⟩
    · cases b
      · rw [not_one fo doc vars n dyn (and_false fo doc vars n dyn h), or_true fo doc vars n dyn (not_one fo doc vars n dyn h)]; rfl
      · rw [or_false fo doc vars n dyn (not_one fo doc vars n dyn h), boolRes_need_one (T (.not q) x), call_not, call_not,
          and_true fo doc vars n dyn h, boolRes_need_one (T hq x)]
    · rw [not_stop fo doc vars n dyn ht (and_stop fo doc vars n dyn ht h), or_stop fo doc vars n dyn ht (not_stop fo doc vars n dyn ht h)]
  | @notOr p q hp hq =>
    intro x hx
    rcases T hp x with ⟨b, h⟩ | ⟨t, ht, h⟩
    · cases b
      · rw [and_true fo doc vars n dyn (not_one fo doc vars n dyn h), boolRes_need_one (T (.not q) x), call_not, call_not,
          or_false fo doc vars n dyn h, boolRes_need_one (T hq x)]
      · rw [not_one fo doc vars n dyn (or_true fo doc vars n dyn h), and_false fo doc vars n dyn (not_one fo doc vars n dyn h)]; rfl
    · rw [not_stop fo doc vars n dyn ht (or_stop fo doc vars n dyn ht h), and_stop fo doc vars n dyn ht (not_stop fo doc vars n dyn ht h)]
  | @andOr p q r hp hq hr =>
    intro x hx
    rcases T hp x with ⟨b, h⟩ | ⟨t, ht, h⟩
    · cases b
      · rw [and_false fo doc vars n dyn h, or_false fo doc vars n dyn (and_false fo doc vars n dyn h), and_false fo doc vars n dyn h]; rfl
      · rw [and_true fo doc vars n dyn h, boolRes_need_one (T (.or hq hr) x)]
        have h2 : ev (.and p q) x = ev q x := by rw [and_true fo doc vars n dyn h, boolRes_need_one (T hq x)]
        have h3 : ev (.and p r) x = ev r x := by rw [and_true fo doc vars n dyn h, boolRes_need_one (T hr x)]
        rw [eval, eval, h2, h3]
    · rw [and_stop fo doc vars n dyn ht h, or_stop fo doc vars n dyn ht (and_stop fo doc vars n dyn ht h)]
  | inNeg _ ih => intro x hx; rw [eval, eval, ih x hx]
  | inSlash _ _ ih1 ih2 => intro x hx; rw [eval, eval, ih1 x hx]; exact bind_congr fun y _ => ih2 _ (oe hx y)
  | inDslash r _ ih => intro x hx; rw [eval, eval, ih x hx]
  | inUnion _ _ ih1 ih2 => intro x hx; rw [eval, eval, ih1 x hx, ih2 x hx]
  | inEq _ _ ih1 ih2 => intro x hx; rw [eval, eval, ih1 x hx, ih2 x hx]
  | inNe _ _ ih1 ih2 => intro x hx; rw [eval, eval, ih1 x hx, ih2 x hx]
  | inRel op _ _ ih1 ih2 => intro x hx; rw [eval, eval, ih1 x hx, ih2 x hx]
  | inOr _ _ ih1 ih2 => intro x hx; rw [eval, eval, ih1 x hx, ih2 x hx]
  | inAnd _ _ ih1 ih2 => intro x hx; rw [eval, eval, ih1 x hx, ih2 x hx]
  | inAbs _ h1 h2 ih =>
    intro x hx
    rw [eval, eval, isJustNode_false h1, isJustNode_false h2]
    exact bind_congr fun y hy => by rw [ih y (getRoot_truthy fo doc x y hy)]
  | @inAbsAll r r' _ h1 h2 ih =>
    intro x hx
    rw [eval, eval, isJustNode_false h1, isJustNode_false h2]
    have : (fun z : Item F => ev r (z.orElse fo doc x)) = fun z => ev r' (z.orElse fo doc x) :=
      funext fun z => ih _ (oe hx z)
    exact bind_congr fun y hy => by rw [ih y (getRoot_truthy fo doc x y hy), this]
  | inPred ps _ ih => intro x hx; rw [eval, eval, ih x hx]
  | inPreds e ps qs _ ih =>
    intro x hx
    rw [eval, eval]
    refine predLoop_congr _ _ (fun k y _ => evalPreds_mid fo doc vars n dyn ps k ?_) _
    rw [evalPreds, evalPreds, ih _ (oe hx y)]
  | inCall f as bs hf _ ih =>
    intro x hx
    rw [eval, eval, evalArgs_append, evalArgs_append, evalArgs, evalArgs, ih x hx]
    exact callFn_args fo doc dyn hf _ _ x _
  | inSeq es fs _ ih => intro x hx; rw [eval, eval, evalSeq_append, evalSeq_append, evalSeq, evalSeq, ih x hx]

end

/-- C142: an expression and what it can be rewritten to give the same items in the same order, or the same exception after the
same items, from every item that counts as true: so from every node but empty texts. -/
theorem C142_rewriting_is_sound (E : Env F) {e f : Expr F} (h : Rewrites e f) (n : Nat) (x : Item F) (hx : E.Truthy x) :
    E.run n e x = E.run n f x := by
  obtain ⟨dyn, hd⟩ := run_eval E n
  rw [hd, hd]
  exact rewrites_eval E.fo E.doc E.vars n dyn h x hx

/-! ### union -/

theorem union_perm (E : Env F) (n : Nat) {x : Item F} {l r l' r' : Expr F} {xs ys xs' ys' : List (Item F)} (hl : E.Yields n l x xs)
    (hr : E.Yields n r x ys) (hl' : E.Yields n l' x xs') (hr' : E.Yields n r' x ys') (hp : (xs ++ ys).Perm (xs' ++ ys')) :
    E.run n (.union l r) x = E.run n (.union l' r') x := by
  by_cases hx : x.isNode = true
  · obtain ⟨h1, h2⟩ := C51_union_exactly E n l r x xs ys hx hl hr
    obtain ⟨h1', h2'⟩ := C51_union_exactly E n l' r' x xs' ys' hx hl' hr'
    by_cases h : ∀ y ∈ xs ++ ys, E.Placed x y
    · obtain ⟨zs, h3, h4, h5⟩ := h1 h
      obtain ⟨zs', h3', h4', h5'⟩ := h1' fun y hy => h y (hp.mem_iff.2 hy)
      have : zs = zs' := by
        refine List.Perm.eq_of_pairwise ?_ h5 h5' (h4.trans (hp.trans h4'.symm))
        intro a b ha hb hab hba
        have pa := h a (h4.mem_iff.1 ha)
        have pb := h b (hp.mem_iff.2 (h4'.mem_iff.1 hb))
        cases a <;> cases b <;> simp only [Env.Placed, itemBefore, not_true_eq_false] at pa pb hab hba
        · rfl
        · rename_i p q
          rcases docLt_total p q with h | h | h
          · exact absurd h hba
          · rw [h]
          · exact absurd h hab
      rw [Env.Yields] at h3 h3'
      rw [h3, h3', this]
    · have h' : ∃ y ∈ xs ++ ys, ¬ E.Placed x y := by
        refine Classical.byContradiction fun hc => h fun y hy => Classical.byContradiction fun hn => hc ⟨y, hy, hn⟩
      obtain ⟨y, hy, hn⟩ := h'
      rw [h2 ⟨y, hy, hn⟩, h2' ⟨y, hp.mem_iff.1 hy, hn⟩]
  · have : ∀ l r : Expr F, E.run n (.union l r) x = ⟨[], .err .attribute⟩ := by
      intro l r
      rw [run_union, unionRes, if_neg hx]
      rfl
    rw [this, this]

/-- C142: `a | b` is `b | a`, if neither raises. -/
theorem C142_union_commutes (E : Env F) (n : Nat) {x : Item F} {a b : Expr F} {xs ys : List (Item F)} (ha : E.Yields n a x xs)
    (hb : E.Yields n b x ys) : E.run n (.union a b) x = E.run n (.union b a) x :=
  union_perm E n ha hb hb ha List.perm_append_comm

/-- C142: `(a | b) | c` is `a | (b | c)`, if no part raises. -/
theorem C142_union_associates (E : Env F) (n : Nat) {x : Item F} {a b c : Expr F} {xs ys zs us vs : List (Item F)} (ha : E.Yields n a x xs)
    (hb : E.Yields n b x ys) (hc : E.Yields n c x zs) (hab : E.Yields n (.union a b) x us) (hbc : E.Yields n (.union b c) x vs) :
    E.run n (.union (.union a b) c) x = E.run n (.union a (.union b c)) x := by
  have key : ∀ {a b : Expr F} {xs ys us}, E.Yields n a x xs → E.Yields n b x ys → E.Yields n (.union a b) x us → us.Perm (xs ++ ys) := by
    intro a b xs ys us ha hb hu
    by_cases hx : x.isNode = true
    · obtain ⟨h1, h2⟩ := C51_union_exactly E n a b x xs ys hx ha hb
      by_cases h : ∀ y ∈ xs ++ ys, E.Placed x y
      · obtain ⟨zs, h3, h4, _⟩ := h1 h
        rw [Env.Yields] at h3 hu
        rw [h3] at hu
        cases hu
        exact h4
      · have h' : ∃ y ∈ xs ++ ys, ¬ E.Placed x y :=
          Classical.byContradiction fun hc => h fun y hy => Classical.byContradiction fun hn => hc ⟨y, hy, hn⟩
        have := h2 h'
        rw [Env.Yields, this] at hu
        cases hu
    · rw [Env.Yields, run_union, unionRes, if_neg hx] at hu
      cases hu
  refine union_perm E n hab hc ha hbc ?_
  exact ((key ha hb hab).append_right zs).trans (by
    rw [List.append_assoc]
    exact List.Perm.append_left xs (key hb hc hbc).symm)

/-- Laws that one might expect and that are not laws: `b | b` is not `b`; `a and b` is not `b and a`; `not(not(p))` is not `p`
in a predicate; `(e[p])[1]` is not `e[p][1]`; `a = b` is not `b = a`. -/
theorem C142_no_laws :
    let b : Expr NoF := .step .child (.name ['b'])
    let c : Expr NoF := .step .child (.name ['c'])
    exEnv.run 0 (.union b b) (.node []) ≠ exEnv.run 0 b (.node []) ∧
    exEnv.run 0 (.and b c) (.node []) ≠ exEnv.run 0 (.and c b) (.node []) ∧
    exEnv.run 0 (.pred (.step .child .star) [notE (notE (.lit (.int 2)))]) (.node []) ≠
      exEnv.run 0 (.pred (.step .child .star) [.lit (.int 2)]) (.node []) ∧
    exEnv.run 0 (.pred (.pred (.step .child .star) [b]) [.lit (.int 1)]) (.node []) ≠
      exEnv.run 0 (.pred (.step .child .star) [b, .lit (.int 1)]) (.node []) ∧
    exEnv.run 0 (.eq b (.lit (.str []))) (.node []) ≠ exEnv.run 0 (.eq (.lit (.str [])) b) (.node []) := by
  decide

/-- `./*[not(b) and not(c)]/.` and `*[not(b)][not(c)]` can be used for one another. -/
example : X.xparse noFloats "./*[not(b) and not(c)]/.".toList = some (.ok
      (.slash (.pred (.slash .dot (.step .child .star)) [.and (notE (.step .child (.name ['b']))) (notE (.step .child (.name ['c'])))]) .dot)) ∧
    X.xparse noFloats "*[not(b)][not(c)]".toList = some (.ok
      (.pred (.step .child .star) [notE (.step .child (.name ['b'])), notE (.step .child (.name ['c']))])) := by
  constructor <;> with_unfolding_all rfl
example : Rewrites (F := F)
    (.slash (.pred (.slash .dot (.step .child .star)) [.and (notE (.step .child (.name ['b']))) (notE (.step .child (.name ['c'])))]) .dot)
    (.pred (.step .child .star) [notE (.step .child (.name ['b'])), notE (.step .child (.name ['c']))]) :=
  .trans (.pathDot (.pred _ (.slash (.step _ _)))) (.trans (.inPred _ (.dotPath _)) (.predAnd _ [] [] (.not _) (.not _)))

end Amara
