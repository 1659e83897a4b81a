import Verif.Model.Threads
import Verif.Spec.Heap
/-
Specification: two calls end alike, and schedules that run one call only.
-/
namespace Amara

/-- `EndsAs h r h0 r0`: the outcomes `r`, in memory `h`, and `r0`, in memory `h0`, are alike: both are trees, the same
one, or neither is a tree and they are equal. -/
def EndsAs (h : Heap) (r : ParseRes) (h0 : Heap) (r0 : ParseRes) : Prop :=
  (∃ root root0 t, r = .returned root ∧ r0 = .returned root0 ∧ IsTree h root t ∧ IsTree h0 root0 t) ∨
  ((∀ root, r ≠ .returned root) ∧ r = r0)

/-- Schedules that run no other call than `k`; the collector may run. -/
inductive Alone (k : Nat) : World → World → Prop
  | refl {w} : Alone k w w
  | call {w w1} : Alone k w w1 → Alone k w (w1.step k)
  | collect {w w1 h} : Alone k w w1 → Collected w1.roots w1.heap h → Alone k w { w1 with heap := h }

end Amara
