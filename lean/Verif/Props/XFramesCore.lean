import Verif.Props.XFrames
import Verif.Props.Meaning
/-
C157 for the language of queries of C156: in documents of any depth, within a number of calls computed from the query, a query finds
exactly the places its path leads to.
-/
namespace Amara

variable {F : Type}

mutual
  theorem core_noForEach : ∀ p : CorePath, (p.expr : Expr F).noForEach = true
    | .here => by simp only [CorePath.expr, Expr.noForEach]
    | .up => by simp only [CorePath.expr, Expr.noForEach]
    | .step _ _ => by simp only [CorePath.expr, Expr.noForEach]
    | .children => by simp only [CorePath.expr, Expr.noForEach]
    | .nth _ _ _ => by simp [CorePath.expr, Expr.noForEach, Expr.noForEachAll]
    | .abs p => by simp only [CorePath.expr, Expr.noForEach]; exact core_noForEach p
    | .anywhere p => by simp only [CorePath.expr, Expr.noForEach]; exact core_noForEach p
    | .seq p q => by simp only [CorePath.expr, Expr.noForEach, Bool.and_eq_true]; exact ⟨core_noForEach p, core_noForEach q⟩
    | .deep p _ => by simp only [CorePath.expr, Expr.noForEach, Bool.and_true]; exact core_noForEach p
    | .filter p c => by
      simp only [CorePath.expr, Expr.noForEach, Expr.noForEachAll, Bool.and_true, Bool.and_eq_true]
      exact ⟨core_noForEach p, coreTest_noForEach c⟩
    | .either p q => by simp only [CorePath.expr, Expr.noForEach, Bool.and_eq_true]; exact ⟨core_noForEach p, core_noForEach q⟩
  theorem coreTest_noForEach : ∀ c : CoreTest, (c.expr : Expr F).noForEach = true
    | .found p => by simp only [CoreTest.expr]; exact core_noForEach p
    | .attr _ => by simp only [CoreTest.expr, Expr.noForEach]
    | .foundAttr p _ => by simp only [CoreTest.expr, Expr.noForEach, Bool.and_true]; exact core_noForEach p
    | .attrIs _ _ => by simp [CoreTest.expr, Expr.noForEach]
    | .valueIs _ => by simp [CoreTest.expr, Expr.noForEach]
    | .contains _ => by simp [CoreTest.expr, Expr.noForEach, Expr.noForEachAll]
    | .startsWith _ => by simp [CoreTest.expr, Expr.noForEach, Expr.noForEachAll]
    | .not c => by
      simp only [CoreTest.expr, Expr.noForEach, Expr.noForEachAll, Bool.and_true, Bool.and_eq_true]
      exact ⟨by decide, coreTest_noForEach c⟩
    | .and c d => by
      have h1 := coreTest_noForEach c
      have h2 := coreTest_noForEach d
      simp only [CoreTest.expr, Expr.noForEach, Bool.and_eq_true]
      constructor
      · split
        · simp only [Expr.noForEach, Expr.noForEachAll, Bool.and_true, Bool.and_eq_true]; exact ⟨by decide, h1⟩
        · exact h1
      · split
        · simp only [Expr.noForEach, Expr.noForEachAll, Bool.and_true, Bool.and_eq_true]; exact ⟨by decide, h2⟩
        · exact h2
    | .or c d => by
      have h1 := coreTest_noForEach c
      have h2 := coreTest_noForEach d
      simp only [CoreTest.expr, Expr.noForEach, Bool.and_eq_true]
      constructor
      · split
        · simp only [Expr.noForEach, Expr.noForEachAll, Bool.and_true, Bool.and_eq_true]; exact ⟨by decide, h1⟩
        · exact h1
      · split
        · simp only [Expr.noForEach, Expr.noForEachAll, Bool.and_true, Bool.and_eq_true]; exact ⟨by decide, h2⟩
        · exact h2
    | .yes => by simp [CoreTest.expr, Expr.noForEach, Expr.noForEachAll]
    | .no => by simp [CoreTest.expr, Expr.noForEach, Expr.noForEachAll]
end

/-- C157: a query of the language of C156, under a limit that leaves room for the calls of the query and the height of the
document, yields exactly the places its path leads to. -/
theorem C157_core (E : Env F) (hd : E.doc.NoEmptyText) (hdict : E.doc.Dicts) (c : QNeeds) {m : Nat} (hc : c.toNeeds.Within m)
    {p : CorePath} (hok : p.Ok) {k : Nat} (hk : (p.expr : Expr F).calls c (2 * E.doc.height + m + 2) ≤ k) (n : Nat) {u : Spot} (hu : E.doc.Place u) :
    ∃ vs : List Spot, E.runK c k n p.expr u.item = ⟨vs.map Spot.item, .done⟩ ∧ ∀ v, v ∈ vs ↔ p.Leads E.doc u v := by
  obtain ⟨vs, h1, h2⟩ := C156_paths E hd hdict n hok hu
  exact ⟨vs, (C157_enough_room E c hc (core_noForEach p) hk n u.item).trans h1, h2⟩

/-- C157: and if it has no `|` in it and no test of the text in elements, the depth of the document plays no role. -/
theorem C157_core_any_depth (E : Env F) (hd : E.doc.NoEmptyText) (hdict : E.doc.Dicts) (c : QNeeds) {p : CorePath} (hok : p.Ok)
    (hp : (p.expr : Expr F).asksDepth = false) {k : Nat} (hk : (p.expr : Expr F).calls c 0 ≤ k) (n : Nat) {u : Spot} (hu : E.doc.Place u) :
    ∃ vs : List Spot, E.runK c k n p.expr u.item = ⟨vs.map Spot.item, .done⟩ ∧ ∀ v, v ∈ vs ↔ p.Leads E.doc u v := by
  obtain ⟨vs, h1, h2⟩ := C156_paths E hd hdict n hok hu
  exact ⟨vs, (C157_any_depth E c (core_noForEach p) hp hk n u.item).trans h1, h2⟩

theorem tower_at : ∀ (p : Path) (h : Nat) (z : Node), (tower h).at? p = some z → ∃ h', z = tower h'
  | [], h, z, e => by
    refine ⟨h, ?_⟩
    rw [Node.at?] at e
    cases e
    rfl
  | i :: p, 0, z, e => by cases e
  | 0 :: p, h + 1, z, e => tower_at p h z e
  | (_ + 1) :: p, h + 1, z, e => by cases e

-- `//a[boolean(a) and not(@k='v')]/..` in a document of any depth, with twenty calls
example : ∀ h : Nat, ∃ vs : List Spot,
    let p : CorePath := .seq (.filter (.anywhere (.step .child ['a'])) (.and (.found (.step .child ['a'])) (.not (.attrIs ['k'] ['v'])))) .up
    Env.runK ⟨noFloats, tower h, fun _ => none, fun _ => .error .key⟩ someNeeds 20 0 p.expr .root = ⟨vs.map Spot.item, .done⟩ ∧
      ∀ v, v ∈ vs ↔ p.Leads (tower h) .root v := by
  intro h
  refine C157_core_any_depth ⟨noFloats, tower h, fun _ => none, fun _ => .error .key⟩ ?_ ?_ someNeeds ?_ (by decide) (by decide) 0 (u := .root) trivial
  · intro p hp
    obtain ⟨h', e⟩ := tower_at p h _ hp
    cases h' <;> cases e
  · intro p m as cs hp
    obtain ⟨h', e⟩ := tower_at p h _ hp
    cases h' <;> cases e <;> exact .nil
  · simp only [CorePath.Ok, CoreTest.Ok, and_true, true_and]
    exact ⟨rfl, by decide⟩

end Amara
