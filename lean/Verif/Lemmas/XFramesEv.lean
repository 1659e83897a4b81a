import Verif.Lemmas.XFramesRoom
/-
Lemmas for C157: for every query, also one that evaluates texts as queries, some limit is enough.
-/
namespace Amara

variable {F : Type}

/-- From some number of calls on, the result is `r`. -/
def Ev {α : Type} (f : Nat → α) (r : α) : Prop := ∃ K, ∀ k, K ≤ k → f k = r

theorem ev_const {α : Type} (r : α) : Ev (fun _ => r) r := ⟨0, fun _ _ => rfl⟩

theorem ev_map {α β : Type} {f : Nat → α} {r : α} (h : Ev f r) (g : α → β) : Ev (fun k => g (f k)) (g r) :=
  h.imp fun _ h k hk => congrArg g (h k hk)

theorem ev_map2 {α β γ : Type} {f : Nat → α} {f' : Nat → β} {r : α} {r' : β} (h : Ev f r) (h' : Ev f' r') (g : α → β → γ) :
    Ev (fun k => g (f k) (f' k)) (g r r') := by
  obtain ⟨K, h⟩ := h
  obtain ⟨K', h'⟩ := h'
  exact ⟨max K K', fun k hk => by dsimp only; rw [h k (by omega), h' k (by omega)]⟩

/-- The rest of a computation, when its first result is known. -/
theorem ev_then {α β : Type} {f : Nat → α} {r : α} {g : Nat → α → β} {r' : β} (h : Ev f r) (h' : Ev (fun k => g k r) r') :
    Ev (fun k => g k (f k)) r' := by
  obtain ⟨K, h⟩ := h
  obtain ⟨K', h'⟩ := h'
  exact ⟨max K K', fun k hk => by dsimp only; rw [h k (by omega)]; exact h' k (by omega)⟩

theorem ev_sub {α : Type} {f : Nat → α} {r : α} (m : Nat) (h : Ev f r) : Ev (fun k => f (k - m)) r := by
  obtain ⟨K, h⟩ := h
  exact ⟨K + m, fun k hk => h _ (by omega)⟩

theorem ev_callK {f : Nat → Res F} {r : Res F} (h : Ev f r) : Ev (fun k => callK k f) r := by
  obtain ⟨K, h⟩ := h
  refine ⟨K + 1, fun k hk => ?_⟩
  dsimp only
  rw [callK_of (by omega)]
  exact h _ (by omega)

theorem ev_if {α : Type} {f : Nat → α} {r d : α} (m : Nat) (h : Ev f r) : Ev (fun k => if k < m then d else f k) r := by
  obtain ⟨K, h⟩ := h
  refine ⟨max K m, fun k hk => ?_⟩
  dsimp only
  rw [if_neg (by omega)]
  exact h _ (by omega)

theorem ev_bindList {f : Nat → Item F → Res F} {g : Item F → Res F} (h : ∀ y, Ev (fun k => f k y) (g y)) (t : Tail) :
    ∀ xs, Ev (fun k => Res.bindList (f k) t xs) (Res.bindList g t xs)
  | [] => ev_const _
  | x :: r => ev_map2 (h x) (ev_bindList h t r) Res.append

theorem ev_bind {a : Nat → Res F} {a₀ : Res F} {f : Nat → Item F → Res F} {g : Item F → Res F} (ha : Ev a a₀)
    (h : ∀ y, Ev (fun k => f k y) (g y)) : Ev (fun k => (a k).bind (f k)) (a₀.bind g) :=
  ev_then (g := fun k r => Res.bind r (f k)) ha (ev_bindList h a₀.tail a₀.items)

theorem ev_need {a : Nat → Res F} {a₀ : Res F} {f : Nat → Item F → Res F} {g : Item F → Res F} (ha : Ev a a₀)
    (h : ∀ y, Ev (fun k => f k y) (g y)) : Ev (fun k => (a k).need (f k)) (a₀.need g) := by
  refine ev_then (g := fun k r => Res.need r (f k)) ha ?_
  unfold Res.need
  cases a₀.first with
  | got y => exact h y
  | empty => exact ev_const _
  | stop t => exact ev_const _

theorem ev_predLoop {f : Nat → Nat → Item F → Bool ⊕ Tail} {g : Nat → Item F → Bool ⊕ Tail} (h : ∀ p y, Ev (fun k => f k p y) (g p y)) (t : Tail) :
    ∀ xs p, Ev (fun k => predLoop (f k) t p xs) (predLoop g t p xs)
  | [], p => ev_const _
  | x :: r, p => by
    simp only [predLoop]
    refine ev_then (g := fun k b => match b with
      | .inr t => (⟨[], t⟩ : Res F)
      | .inl b => if b then ⟨x :: (predLoop (f k) t (p + 1) r).items, (predLoop (f k) t (p + 1) r).tail⟩ else predLoop (f k) t (p + 1) r) (h p x) ?_
    have ih := ev_predLoop h t r (p + 1)
    cases g p x with
    | inr t' => exact ev_const _
    | inl b =>
      exact ev_map ih fun y => if b then (⟨x :: y.items, y.tail⟩ : Res F) else y

section
variable (fo : FloatOps F) (doc : Node) (c : QNeeds)

/-- All string values of a document fit from some number of calls on. -/
theorem ev_values (F : Type) : ∃ v, ValuesFit F doc c v :=
  ⟨_, valuesFit F (m := max (max c.quote c.escape) (max c.value c.text)) ⟨by omega, by omega, by omega, by omega⟩ (Nat.le_refl _)⟩

theorem ev_convArgs (f : Str) (rs : List (Res F)) : Ev (fun k => convArgs doc c k f rs) rs := by
  obtain ⟨v, hv⟩ := ev_values doc c F
  refine ⟨c.conv f + max 1 v, fun k hk => ?_⟩
  by_cases hf : f = "for-each".toList
  · unfold convArgs
    dsimp only
    rw [if_neg (by rw [hf]; decide), if_pos hf]
    split
    · rw [convFirst_of hk (.inl hv)]
    · rfl
  · exact convArgs_of hf (fun _ => hk) fun _ => .inl hv

/-- What an expression given as a text gives, with enough calls. -/
def EvDyn (d : Except XErr (Nat → Item F → Res F)) (d₀ : Except XErr (Item F → Res F)) : Prop :=
  (∃ e, d = .error e ∧ d₀ = .error e) ∨ ∃ g g₀, d = .ok g ∧ d₀ = .ok g₀ ∧ ∀ x, Ev (fun k => g k x) (g₀ x)

/-- The expressions given as texts, with `k` calls left in the function. -/
def dynAt (dyn : Str → Except XErr (Nat → Item F → Res F)) (k : Nat) (s : Str) : Except XErr (Item F → Res F) :=
  if k - 1 < c.parse then .error .recursion else (dyn s).map fun g y => if k - 1 < c.copy then .tooDeep else g (k - 1) y

theorem ev_forEach {dyn : Str → Except XErr (Nat → Item F → Res F)} {dyn₀ : Str → Except XErr (Item F → Res F)}
    (hdyn : ∀ s, EvDyn (dyn s) (dyn₀ s)) (x : Item F) (rs : List (Res F)) :
    Ev (fun k => fnForEach fo doc (dynAt c dyn k) x rs) (fnForEach fo doc dyn₀ x rs) := by
  unfold fnForEach
  match rs with
  | [] => exact ev_const _
  | [_] => exact ev_const _
  | _ :: _ :: _ :: _ => exact ev_const _
  | [a, b] =>
    unfold strArg Res.orDefault
    have key : ∀ s : Str, Ev (fun k => match dynAt c dyn k s with
        | .ok g => a.bind fun y => g (y.orElse fo doc x)
        | .error e => .fail e) (match dyn₀ s with
        | .ok g => a.bind fun y => g (y.orElse fo doc x)
        | .error e => .fail e) := by
      intro s
      rcases hdyn s with ⟨e, e1, e2⟩ | ⟨g, g₀, e1, e2, e3⟩
      · refine ⟨c.parse + 1, fun k hk => ?_⟩
        have : dynAt c dyn k s = .error e := by
          unfold dynAt
          rw [if_neg (by omega), e1]
          rfl
        dsimp only
        rw [this, e2]
      · obtain ⟨K, hK⟩ := ev_bind (a := fun _ => a) (ev_const a) fun y => ev_sub 1 (ev_if (d := Res.tooDeep) c.copy (e3 (y.orElse fo doc x)))
        refine ⟨max K (c.parse + 1), fun k hk => ?_⟩
        have : dynAt c dyn k s = .ok fun y => if k - 1 < c.copy then .tooDeep else g (k - 1) y := by
          unfold dynAt
          rw [if_neg (by omega), e1]
          rfl
        dsimp only
        rw [this, e2]
        exact hK k (by omega)
    dsimp only
    cases b.first with
    | got y => exact key _
    | empty => exact key _
    | stop t => exact ev_const _

theorem ev_callFn {dyn : Str → Except XErr (Nat → Item F → Res F)} {dyn₀ : Str → Except XErr (Item F → Res F)}
    (hdyn : ∀ s, EvDyn (dyn s) (dyn₀ s)) (x : Item F) (f : Str) (as : List (Expr F)) {rs : Nat → List (Res F)} {rs₀ : List (Res F)}
    (hs : Ev rs rs₀) : Ev (fun k => callFnK fo doc c k dyn x f as (rs k)) (callFn fo doc dyn₀ x f as rs₀) := by
  obtain ⟨v, hv⟩ := ev_values doc c F
  obtain ⟨K1, h1⟩ := hs
  obtain ⟨K2, h2⟩ := ev_convArgs doc c f rs₀
  obtain ⟨K3, h3⟩ := ev_forEach fo doc c hdyn x rs₀
  refine ⟨max (max K1 K2) (max K3 (c.conv f + max 1 v)), fun k hk => ?_⟩
  have e2 : convArgs doc c k f rs₀ = rs₀ := h2 k (by omega)
  dsimp only
  rw [h1 k (by omega)]
  unfold callFnK
  rw [if_neg (by omega), if_neg, e2]
  · show callFn fo doc (dynAt c dyn k) x f as rs₀ = _
    by_cases hf : f = "for-each".toList
    · subst hf
      rw [callFn_forEach, callFn_forEach]
      exact h3 k (by omega)
    · exact callFn_dyn fo doc _ _ x f as rs₀ hf
  · rintro ⟨_, _, h3⟩
    rw [convFits_of (v := v) (by omega) (.inl hv)] at h3
    cases h3

end

section
set_option linter.unusedSectionVars false
variable (fo : FloatOps F) (doc : Node) (c : QNeeds) (vars : Str → Option (Item F)) (n : Nat)
  {dyn : Str → Except XErr (Nat → Item F → Res F)} {dyn₀ : Str → Except XErr (Item F → Res F)} (hdyn : ∀ s, EvDyn (dyn s) (dyn₀ s))
include hdyn

theorem ev_step (a : Axis) (t : Test) (x : Item F) : Ev (fun k => stepResK fo doc c n k a t x) (stepRes fo doc n a t x) :=
  ev_callK (ev_if _ (ev_const _))

mutual
  theorem ev_eval : ∀ (e : Expr F) (x : Item F), Ev (fun k => evalK fo doc c vars n dyn e k x) (eval fo doc vars n dyn₀ e x)
    | .lit y, x => by simp only [evalK, eval]; exact ev_callK (ev_const _)
    | .neg e, x => by
      simp only [evalK, eval]
      exact ev_callK (ev_map (ev_eval e x) fun r => match r.first with
        | .stop t => (⟨[], t⟩ : Res F)
        | _ => .fail .type)
    | .slash l r, x => by
      simp only [evalK, eval]
      exact ev_callK (ev_bind (ev_eval l x) fun y => ev_if _ (ev_eval r _))
    | .dslash l r, x => by
      have ihr := ev_eval r
      simp only [evalK, eval]
      refine ev_callK (ev_bind (ev_eval l x) fun y => ev_if _ ?_)
      cases r <;> first | exact ev_step fo doc c n hdyn _ _ _ | exact ihr _
    | .union l r, x => by
      obtain ⟨v, hv⟩ := ev_values doc c F
      simp only [evalK, eval]
      obtain ⟨K, hK⟩ := ev_map2 (ev_eval l x) (ev_eval r x) (unionRes doc x)
      refine ev_callK ⟨max K v, fun k hk => ?_⟩
      unfold unionResK
      dsimp only
      rw [(hv k (by omega) x).2]
      simp only [Bool.not_true, Bool.and_false, Bool.false_eq_true, if_false]
      exact hK k (by omega)
    | .eq l r, x => by
      obtain ⟨v, hv⟩ := ev_values doc c F
      simp only [evalK, eval]
      obtain ⟨K, hK⟩ := ev_map2 (ev_eval l x) (ev_eval r x) (eqRes fo doc)
      refine ev_callK ⟨max K (max 1 v), fun k hk => ?_⟩
      have hfit : ∀ i : Item F, i.valueFits doc k = true := by
        intro i
        cases he : i.isElem doc with
        | false => exact valueFits_noElem (by omega) he
        | true => exact ((hv k (by omega) i).1 he).2
      unfold eqResK
      rw [← hK k (by omega)]
      simp only []
      split
      · rw [if_pos (hfit _)]
      · rfl
    | .ne l r, x => by
      simp only [evalK, eval]
      exact ev_callK (ev_need (ev_eval l x) fun a => ev_need (ev_eval r x) fun b => ev_const _)
    | .rel op l r, x => by
      simp only [evalK, eval]
      exact ev_callK (ev_need (ev_eval l x) fun a => ev_need (ev_eval r x) fun b => ev_const _)
    | .or l r, x => by
      simp only [evalK, eval]
      refine ev_callK (ev_need (ev_eval l x) fun a => ?_)
      cases a.truthy fo doc
      · exact ev_need (ev_eval r x) fun b => ev_const _
      · exact ev_const _
    | .and l r, x => by
      simp only [evalK, eval]
      refine ev_callK (ev_need (ev_eval l x) fun a => ?_)
      cases a.truthy fo doc
      · exact ev_const _
      · exact ev_need (ev_eval r x) fun b => ev_const _
    | .arith _ _ _, x => by simp only [evalK, eval]; exact ev_callK (ev_const _)
    | .abs none, x => by simp only [evalK, eval]; exact ev_callK (ev_if _ (ev_const _))
    | .abs (some r), x => by
      simp only [evalK, eval]
      exact ev_callK (ev_if _ (ev_bind (ev_const _) fun y => ev_map2 (ev_const _) (ev_if _ (ev_eval r y)) Res.append))
    | .absAll r, x => by
      simp only [evalK, eval]
      refine ev_callK (ev_if _ (ev_bind (ev_const _) fun y => ev_map2 (ev_const _) (ev_if _ (ev_map2 (ev_eval r y) ?_ Res.append)) Res.append))
      cases Item.below doc y with
      | none => exact ev_const _
      | some ys => exact ev_bindList (fun z => ev_eval r _) _ _
    | .step a t, x => by simp only [evalK, eval]; exact ev_step fo doc c n hdyn a t x
    | .test t, x => by simp only [evalK, eval]; exact ev_callK (ev_const _)
    | .pred lhs ps, x => by
      simp only [evalK, eval]
      refine ev_callK (ev_then (g := fun k r => predLoop (fun pos y => if k < c.copy then .inr (.err .recursion)
        else evalPredsK fo doc c vars n dyn pos ps k (y.orElse fo doc x)) r.tail 1 r.items) (ev_eval lhs x) (ev_predLoop (fun pos y => ?_) _ _ _))
      exact ev_if _ (ev_evalPreds pos ps _)
    | .dot, x => by simp only [evalK, eval]; exact ev_callK (ev_const _)
    | .dotdot, x => by
      simp only [evalK, eval]
      exact ev_callK (ev_if _ (ev_const _))
    | .var v, x => by simp only [evalK, eval]; exact ev_callK (ev_const _)
    | .call f args, x => by
      simp only [evalK, eval]
      exact ev_callK (ev_callFn fo doc c hdyn x f args (ev_evalArgs f args 0 x))
    | .seq es, x => by
      simp only [evalK, eval]
      exact ev_callK (ev_evalSeq es x)
  theorem ev_evalPreds (pos : Nat) : ∀ (ps : List (Expr F)) (x : Item F),
      Ev (fun k => evalPredsK fo doc c vars n dyn pos ps k x) (evalPreds fo doc vars n dyn₀ pos ps x)
    | [], x => by simp only [evalPredsK, evalPreds]; exact ev_const _
    | p :: r, x => by
      simp only [evalPredsK, evalPreds]
      refine ev_then (g := fun k b => match b with
        | .inl true => evalPredsK fo doc c vars n dyn pos r k x
        | v => v) (ev_map (ev_eval p x) (predHolds fo doc pos)) ?_
      generalize predHolds fo doc pos (eval fo doc vars n dyn₀ p x) = b
      match b with
      | .inl true => exact ev_evalPreds pos r x
      | .inl false => exact ev_const _
      | .inr _ => exact ev_const _
  theorem ev_evalArgs (f : Str) : ∀ (es : List (Expr F)) (i : Nat) (x : Item F),
      Ev (fun k => evalArgsK fo doc c vars n dyn f i es k x) (evalArgs fo doc vars n dyn₀ es x)
    | [], i, x => by simp only [evalArgsK, evalArgs]; exact ev_const _
    | e :: r, i, x => by
      simp only [evalArgsK, evalArgs]
      exact ev_map2 (ev_sub _ (ev_eval e x)) (ev_evalArgs f r (i + 1) x) List.cons
  theorem ev_evalSeq : ∀ (es : List (Expr F)) (x : Item F),
      Ev (fun k => evalSeqK fo doc c vars n dyn es k x) (evalSeq fo doc vars n dyn₀ es x)
    | [], x => by simp only [evalSeqK, evalSeq]; exact ev_const _
    | e :: r, x => by
      simp only [evalSeqK, evalSeq]
      exact ev_map2 (ev_eval e x) (ev_evalSeq r x) Res.append
end

end

theorem ev_evalN (fo : FloatOps F) (doc : Node) (c : QNeeds) (parse : Str → Except XErr (Expr F)) (vars : Str → Option (Item F)) :
    ∀ (n : Nat) (e : Expr F) (x : Item F), Ev (fun k => evalNK fo doc c parse vars n e k x) (evalN fo doc parse vars n e x)
  | 0, e, x => by
    unfold evalNK evalN
    refine ev_eval fo doc c vars 0 (fun s => ?_) e x
    cases h : parse s with
    | error er => exact .inl ⟨er, rfl, rfl⟩
    | ok e' => exact .inr ⟨_, _, rfl, rfl, fun _ => ev_const _⟩
  | n + 1, e, x => by
    unfold evalNK evalN
    refine ev_eval fo doc c vars (n + 1) (fun s => ?_) e x
    cases h : parse s with
    | error er => exact .inl ⟨er, rfl, rfl⟩
    | ok e' => exact .inr ⟨_, _, rfl, rfl, fun x => ev_evalN fo doc c parse vars n e' x⟩

end Amara
