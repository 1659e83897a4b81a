import Verif.Props.XPath
/-!
# C49: predicates whose value is computed, and is a number

`C49_positional` is about `expr[k]`, `k` a literal.  Here the predicate is any expression whose value at each item
is a number, integer or float: the item is kept exactly if the number, cut to an integer, is its position.
-/
namespace Amara
variable {F : Type}

/-- `int(v)` of a number; nothing else has one. -/
def Env.toInt (E : Env F) : Item F → Option Int
  | .int i => some i
  | .float f => E.fo.trunc f
  | _ => none

theorem predHolds_num (E : Env F) (pos : Nat) (v : Item F) (ys : List (Item F)) (t : Tail) {k : Int} (hk : E.toInt v = some k) :
    predHolds E.fo E.doc pos ⟨v :: ys, t⟩ = .inl ((pos : Int) == k) := by
  cases v with
  | int i => simp only [Env.toInt, Option.some.injEq] at hk; simp only [predHolds, Res.first, hk]
  | float f => simp only [Env.toInt] at hk; simp only [predHolds, Res.first, hk]
  | _ => simp [Env.toInt] at hk

theorem predLoop_num (f : Nat → Item F → Bool ⊕ Tail) (k : Item F → Int) (t : Tail) (pos : Nat) (xs : List (Item F))
    (h : ∀ pos : Nat, ∀ y ∈ xs, f pos y = .inl ((pos : Int) == k y)) :
    predLoop f t pos xs = ⟨((xs.zipIdx pos).filter fun a => (a.2 : Int) == k a.1).map (·.1), t⟩ := by
  induction xs generalizing pos with
  | nil => rfl
  | cons x xs ih =>
    rw [predLoop, h pos x (by simp)]
    simp only
    rw [ih (pos + 1) (fun pos y hy => h pos y (by simp [hy])), List.zipIdx_cons, List.filter_cons]
    cases ((pos : Int) == k x) <;> rfl

/-- C49: `expr[num]`, where the value of `num` at each item is a number, yields exactly those items whose position
(counted from 1) is the number computed for them, cut to an integer. -/
theorem C49_computed_number (E : Env F) (n : Nat) (e num : Expr F) (x : Item F) (xs : List (Item F)) (t : Tail)
    (h : E.run n e x = ⟨xs, t⟩) (hx : ∀ y ∈ xs, E.Truthy y) (k : Item F → Int)
    (hk : ∀ y ∈ xs, ∃ v ys t', E.run n num y = ⟨v :: ys, t'⟩ ∧ E.toInt v = some (k y)) :
    E.run n (.pred e [num]) x = ⟨((xs.zipIdx 1).filter fun a => (a.2 : Int) == k a.1).map (·.1), t⟩ := by
  rw [run_pred, h]
  refine predLoop_num _ k _ _ _ (fun pos y hy => ?_)
  obtain ⟨v, ys, t', hr, hv⟩ := hk y hy
  rw [orElse_truthy (hx y hy), hr]
  exact predHolds_num E pos v ys t' hv

/-- C49: a float works like the integer it is cut to. -/
theorem C49_float_literal (E : Env F) (n : Nat) (e : Expr F) (x : Item F) (f : F) (k : Int) (hf : E.fo.trunc f = some k) :
    E.run n (.pred e [.lit (.float f)]) x = E.run n (.pred e [.lit (.int k)]) x := by
  rw [run_pred, run_pred]
  congr 1
  funext pos y
  rw [run_lit, run_lit]
  exact (predHolds_num E pos (.float f) [] .done hf).trans (predHolds_num E pos (.int k) [] .done rfl).symm

/-- C49: a number that is no integer even when cut (infinity, not a number) raises at the first item. -/
theorem C49_no_integer (E : Env F) (n : Nat) (e num : Expr F) (x y : Item F) (xs : List (Item F)) (t : Tail)
    (h : E.run n e x = ⟨y :: xs, t⟩) (hy : E.Truthy y) (f : F) (ys : List (Item F)) (t' : Tail)
    (hf : E.run n num y = ⟨.float f :: ys, t'⟩) (hn : E.fo.trunc f = none) :
    E.run n (.pred e [num]) x = ⟨[], .err .value⟩ := by
  rw [run_pred, h, predLoop, orElse_truthy hy, hf]
  simp only [predHolds, Res.first, hn]

/-- Halves: `some n` is `n / 2`, `none` is not a number. -/
def halves : FloatOps (Option Int) :=
  { parse := fun _ => none, show_ := fun _ => [], trunc := fun f => f.map fun n => n.tdiv 2,
    isZero := fun f => f == some 0, cmp := fun _ _ => none }

def exHalves : Env (Option Int) := { fo := halves, doc := exTree, vars := fun _ => none, parse := fun _ => .error .runtime }

/-- `node()[2.5]`, `node()[nan]` and `*[count(ancestor::*)]`, where the ancestors are the element and the root node. -/
example : exHalves.run 0 (.pred (.step .child .node) [.lit (.float (some 5))]) (.node []) = ⟨[.node [1]], .done⟩ ∧
    exHalves.run 0 (.pred (.step .child .node) [.lit (.float none)]) (.node []) = ⟨[], .err .value⟩ ∧
    exHalves.run 0 (.pred (.step .child .star) [.call "count".toList [.step .ancestor .star]]) (.node []) =
      ⟨[.node [2]], .done⟩ := by
  refine ⟨by decide, by decide, by decide +kernel⟩

/-- The hypotheses of `C49_computed_number`. -/
example : ∀ y ∈ [Item.node [1], .node [2]], exHalves.Truthy y ∧
    ∃ v ys t', exHalves.run 0 (.call "count".toList [.step .ancestor .star]) y = ⟨v :: ys, t'⟩ ∧ exHalves.toInt v = some 2 := by
  intro y hy
  simp only [List.mem_cons, List.not_mem_nil, or_false] at hy
  unfold Env.Truthy
  rcases hy with rfl | rfl
  · exact ⟨by decide, .int 2, [], .done, by decide +kernel, rfl⟩
  · exact ⟨by decide, .int 2, [], .done, by decide +kernel, rfl⟩

end Amara
