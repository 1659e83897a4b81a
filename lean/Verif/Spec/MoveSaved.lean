import Verif.Spec.Move
/-
Specification for the second part of C178: how often something occurs in a tree.
-/
namespace Amara

mutual
  /-- The sum over a tree of what each element counts for by its tag and each text by its characters. -/
  def Node.tally (g : Str → Attrs → Nat) (f : Str → Nat) : Node → Nat
    | .elem n as cs => g n as + Node.tallyList g f cs
    | .text s => f s
  def Node.tallyList (g : Str → Attrs → Nat) (f : Str → Nat) : List Node → Nat
    | [] => 0
    | x :: r => x.tally g f + Node.tallyList g f r
end

/-- How many elements of a tree have this name and these attributes. -/
def Node.tagCount (n : Str) (as : Attrs) : Node → Nat := Node.tally (fun m bs => if m = n ∧ bs = as then 1 else 0) (fun _ => 0)

/-- How many texts of a tree are these characters. -/
def Node.textCount (s : Str) : Node → Nat := Node.tally (fun _ _ => 0) (fun u => if u = s then 1 else 0)

end Amara
