import Verif.Model.TreeUtil
import Verif.Model.Writer
/-
`write` of `pylib/uxml/writer.py` and `select_pattern` of `pylib/uxml/treeutil.py` with Python's limit on nested calls, as in
`Model/Frames`: the argument `k` is the number of nested calls that are still allowed, the function's own included.

How many nested calls the methods of the writer and the states of a pattern need is a parameter.
-/
namespace Amara

/-- How many nested calls the methods of the writer need: `start_element` (`uxml/writer.py` 190), `text` (195),
`end_element` (196). -/
structure WriterNeeds where
  start : Nat
  text : Nat
  stop : Nat

/-- How `write` ended: by itself, or with RecursionError, raised by a call of `write` itself or inside a call of a method of
the writer. -/
inductive WriteEnd where
  | fine
  | between
  | inside (c : Call)
deriving DecidableEq, Repr

mutual
  /-- `write(elem, a_writer)`, `uxml/writer.py` 184-197: the calls of the writer's methods that were completed, and how it
  ended.  (It is only called on elements.) -/
  def Node.writeK (c : WriterNeeds) : Nat → Node → List Call × WriteEnd
    | 0, _ => ([], .between)
    | k + 1, .elem n as cs =>
      if k < c.start then ([], .inside (.start n as false))                    -- 190
      else match Node.writeChildrenK c k cs with
        | (xs, .fine) =>
          if k < c.stop then (.start n as false :: xs, .inside (.stop n))      -- 196
          else (.start n as false :: (xs ++ [.stop n]), .fine)
        | (xs, e) => (.start n as false :: xs, e)
    | _ + 1, .text _ => ([], .fine)
  /-- The loop, `uxml/writer.py` 191-195. -/
  def Node.writeChildrenK (c : WriterNeeds) (k : Nat) : List Node → List Call × WriteEnd
    | [] => ([], .fine)
    | .elem n as cs :: r =>
      match Node.writeK c k (.elem n as cs) with
      | (xs, .fine) => (xs ++ (Node.writeChildrenK c k r).1, (Node.writeChildrenK c k r).2)
      | (xs, e) => (xs, e)
    | .text s :: r =>
      if k < c.text then ([], .inside (.text s))                               -- 195
      else (.text s :: (Node.writeChildrenK c k r).1, (Node.writeChildrenK c k r).2)
end

/-- How a generator ended. -/
inductive SelectEnd where
  | fine | typeError | recursion
deriving DecidableEq, Repr

mutual
  /-- `select_pattern(node, None, state)`, `uxml/treeutil.py` 165-175.  Calling the state `st` on `x` (170) takes `need st x`
  nested calls.  To go on in a nested generator every generator around it is entered again. -/
  def Node.selectStateK (need : List (Stage Node) → Node → Nat) (p : Path) (st : List (Stage Node)) :
      Nat → Node → List (Path × Node) × SelectEnd
    | 0, _ => ([], .recursion)
    | k + 1, .elem _ _ cs => Node.selectStatesK need p st k 0 cs
    | _ + 1, .text _ => ([], .fine)
  /-- The loop over the children, `uxml/treeutil.py` 169-174. -/
  def Node.selectStatesK (need : List (Stage Node) → Node → Nat) (p : Path) (st : List (Stage Node)) (k : Nat) (i : Nat) :
      List Node → List (Path × Node) × SelectEnd
    | [] => ([], .fine)
    | x :: r =>
      if k < need st x then ([], .recursion)
      else match patStep Node.look st x with
        | .typeError => ([], .typeError)
        | .none => Node.selectStatesK need p st k (i + 1) r
        | .to [] => ((p ++ [i], x) :: (Node.selectStatesK need p st k (i + 1) r).1, (Node.selectStatesK need p st k (i + 1) r).2)
        | .to (s :: st') =>
          match Node.selectStateK need (p ++ [i]) (s :: st') k x with
          | (xs, .fine) => (xs ++ (Node.selectStatesK need p st k (i + 1) r).1, (Node.selectStatesK need p st k (i + 1) r).2)
          | (xs, e) => (xs, e)
end

end Amara
