import Verif.Spec.StreamTests
import Verif.Props.Stream
import Verif.Props.QueryText
/-
C172: queries with tests asked of the records of a stream.
-/
namespace Amara

variable {F : Type}

/-! ### which expressions look down -/

theorem down_axis {a : CoreAxis} (h : (a != .followingSibling && a != .precedingSibling) = true) : a.axis.Down := by
  cases a <;> simp_all [CoreAxis.axis, Axis.Down]

mutual
  theorem down_path (E : Env F) : ∀ p : CorePath, p.down = true → E.LooksDown p.expr
    | .here, _ => .dot
    | .children, _ => .step (by simp [Axis.Down])
    | .step _ _, h => .step (down_axis h)
    | .nth _ _ _, h => .pred (.step (down_axis h)) (by intro q hq; rw [List.mem_singleton.1 hq]; exact .lit trivial)
    | .up, h => by cases h
    | .abs _, h => by cases h
    | .anywhere _, h => by cases h
    | .deep p _, h => .dslashStep (down_path E p h)
    | .seq p q, h => by
      simp only [CorePath.down, Bool.and_eq_true] at h
      exact .slash (down_path E p h.1) (down_path E q h.2)
    | .either p q, h => by
      simp only [CorePath.down, Bool.and_eq_true] at h
      exact .union (down_path E p h.1) (down_path E q h.2)
    | .filter p c, h => by
      simp only [CorePath.down, Bool.and_eq_true] at h
      exact .pred (down_path E p h.1) (by intro q hq; rw [List.mem_singleton.1 hq]; exact down_coreTest E c h.2)
  theorem down_coreTest (E : Env F) : ∀ c : CoreTest, c.down = true → E.LooksDown c.expr
    | .found p, h => down_path E p h
    | .foundAttr p _, h => .slash (down_path E p h) (.step (by simp [Axis.Down]))
    | .attr _, _ => .step (by simp [Axis.Down])
    | .attrIs _ _, _ => .eq (.step (by simp [Axis.Down])) (.lit trivial)
    | .valueIs _, _ => .eq .dot (.lit trivial)
    | .contains _, _ => .call (by decide) (by
        intro e he
        rcases List.mem_cons.1 he with rfl | he
        · exact .dot
        · rw [List.mem_singleton.1 he]; exact .lit trivial)
    | .startsWith _, _ => .call (by decide) (by
        intro e he
        rcases List.mem_cons.1 he with rfl | he
        · exact .dot
        · rw [List.mem_singleton.1 he]; exact .lit trivial)
    | .yes, _ => .call (by decide) (by simp)
    | .no, _ => .call (by decide) (by simp)
    | .not c, h => .call (by decide) (by intro q hq; rw [List.mem_singleton.1 hq]; exact down_coreTest E c h)
    | .and c d, h => by
      simp only [CoreTest.down, Bool.and_eq_true] at h
      have h1 := down_coreTest E c h.1
      have h2 := down_coreTest E d h.2
      refine .and ?_ ?_ <;> split <;> first | assumption | (refine .call (by decide) ?_; intro q hq; rw [List.mem_singleton.1 hq]; assumption)
    | .or c d, h => by
      simp only [CoreTest.down, Bool.and_eq_true] at h
      have h1 := down_coreTest E c h.1
      have h2 := down_coreTest E d h.2
      refine .or ?_ ?_ <;> split <;> first | assumption | (refine .call (by decide) ?_; intro q hq; rw [List.mem_singleton.1 hq]; assumption)
end

theorem down_end (E : Env F) (e : CoreEnd) : E.LooksDown e.expr := by
  cases e <;> exact .step (by simp [Axis.Down])

theorem down_list (E : Env F) : ∀ l : CoreList, l.down = true → E.LooksDown l.expr
  | .path p, h => down_path E p h
  | .last e, _ => down_end E e
  | .after p e, h => .slash (down_path E p h) (down_end E e)
  | .allTexts p, h => .dslashStep (down_path E p h)
  | .abs _, h => by cases h
  | .anywhere _, h => by cases h

mutual
  theorem down_tested (E : Env F) : ∀ p : TestedPath, p.down = true → E.LooksDown p.expr
    | .core p, h => down_path E p h
    | .seq p q, h => by
      simp only [TestedPath.down, Bool.and_eq_true] at h
      exact .slash (down_tested E p h.1) (down_tested E q h.2)
    | .deep p _, h => .dslashStep (down_tested E p h)
    | .number p _, h => .pred (down_tested E p h) (by intro q hq; rw [List.mem_singleton.1 hq]; exact .lit trivial)
    | .filter p ts, h => by
      simp only [TestedPath.down, Bool.and_eq_true] at h
      exact .pred (down_tested E p h.1) (down_tests E ts h.2)
    | .numberThen p _ ts, h => by
      simp only [TestedPath.down, Bool.and_eq_true] at h
      refine .pred (down_tested E p h.1) ?_
      intro q hq
      rcases List.mem_cons.1 hq with rfl | hq
      · exact .lit trivial
      · exact down_tests E ts h.2 q hq
  theorem down_testedList (E : Env F) : ∀ l : TestedList, l.down = true → E.LooksDown l.expr
    | .path p, h => down_tested E p h
    | .core l, h => down_list E l h
    | .seq p l, h => by
      simp only [TestedList.down, Bool.and_eq_true] at h
      exact .slash (down_tested E p h.1) (down_list E l h.2)
  theorem down_tests (E : Env F) : ∀ ts : Tests, ts.down = true → ∀ q ∈ ts.exprs, E.LooksDown q
    | .one t, h => by intro q hq; rw [List.mem_singleton.1 hq]; exact down_valueTest E t h
    | .more t ts, h => by
      simp only [Tests.down, Bool.and_eq_true] at h
      intro q hq
      rcases List.mem_cons.1 hq with rfl | hq
      · exact down_valueTest E t h.1
      · exact down_tests E ts h.2 q hq
  theorem down_valueTest (E : Env F) : ∀ t : ValueTest, t.down = true → E.LooksDown t.expr
    | .found l, h => down_testedList E l h
    | .is l _, h => .eq (down_testedList E l h) (.lit trivial)
    | .count l _ _, h => .rel (.call (by decide) (by intro q hq; rw [List.mem_singleton.1 hq]; exact down_testedList E l h)) (.lit trivial)
    | .countIs l _, h => .eq (.call (by decide) (by intro q hq; rw [List.mem_singleton.1 hq]; exact down_testedList E l h)) (.lit trivial)
    | .contains l _, h => .call (by decide) (by
        intro e he
        rcases List.mem_cons.1 he with rfl | he
        · exact down_testedList E l h
        · rw [List.mem_singleton.1 he]; exact .lit trivial)
    | .startsWith l _, h => .call (by decide) (by
        intro e he
        rcases List.mem_cons.1 he with rfl | he
        · exact down_testedList E l h
        · rw [List.mem_singleton.1 he]; exact .lit trivial)
    | .nameIs _, _ => .eq (.call (by decide) (by simp)) (.lit trivial)
    | .not t, h => .call (by decide) (by intro q hq; rw [List.mem_singleton.1 hq]; exact down_valueTest E t h)
    | .and t t', h => by
      simp only [ValueTest.down, Bool.and_eq_true] at h
      have h1 := down_valueTest E t h.1
      have h2 := down_valueTest E t' h.2
      refine .and ?_ ?_ <;> split <;> first | assumption | (refine .call (by decide) ?_; intro q hq; rw [List.mem_singleton.1 hq]; assumption)
    | .or t t', h => by
      simp only [ValueTest.down, Bool.and_eq_true] at h
      have h1 := down_valueTest E t h.1
      have h2 := down_valueTest E t' h.2
      refine .or ?_ ?_ <;> split <;> first | assumption | (refine .call (by decide) ?_; intro q hq; rw [List.mem_singleton.1 hq]; assumption)
end

/-! ### what a query with a path in front gives -/

theorem inTurn_one {α : Type} {R : Spot → List α → Prop} {v : Spot} {vs : List α} : InTurn R [v] vs ↔ R v vs := by
  constructor
  · rintro ⟨xs, ys, rfl, h, rfl⟩
    simpa using h
  · intro h
    exact ⟨vs, [], by simp, h, rfl⟩

theorem under_path_one {doc : Node} {pre : CorePath} {u v : Spot} (hp : ∀ ws, pre.Gives doc u ws ↔ ws = [v]) :
    ∀ (p : CorePath) (vs : List Spot), (p.under pre).Gives doc u vs ↔ p.Gives doc v vs := by
  have base : ∀ (p : CorePath) (vs : List Spot), (CorePath.seq pre p).Gives doc u vs ↔ p.Gives doc v vs := by
    intro p vs
    simp only [CorePath.Gives, hp, exists_eq_left, inTurn_one]
  let rec go : ∀ (p : CorePath) (vs : List Spot), (p.under pre).Gives doc u vs ↔ p.Gives doc v vs := fun p => match p with
  | .seq p q => by intro vs; simp only [CorePath.under, CorePath.Gives, go p]
  | .deep p m => by intro vs; simp only [CorePath.under, CorePath.Gives, go p]
  | .filter p c => by intro vs; simp only [CorePath.under, CorePath.Gives, go p]
  | .here => base _
  | .up => base _
  | .step _ _ => base _
  | .children => base _
  | .nth _ _ _ => base _
  | .abs _ => base _
  | .anywhere _ => base _
  | .either _ _ => base _
  exact go

theorem under_list_one {doc : Node} {pre : CorePath} {u v : Spot} (hp : ∀ ws, pre.Gives doc u ws ↔ ws = [v]) (l : CoreList) (fs : List Found) :
    (l.under pre).Gives doc u fs ↔ l.Gives doc v fs := by
  cases l with
  | path p => simp only [CoreList.under, CoreList.Gives, under_path_one hp]
  | last e => simp only [CoreList.under, CoreList.Gives, hp, exists_eq_left, inTurn_one]
  | after p e => simp only [CoreList.under, CoreList.Gives, under_path_one hp]
  | allTexts p => simp only [CoreList.under, CoreList.Gives, under_path_one hp]
  | abs l => exact Iff.rfl
  | anywhere l => exact Iff.rfl

theorem under_tested_one {doc : Node} {pre : CorePath} {u v : Spot} (hp : ∀ ws, pre.Gives doc u ws ↔ ws = [v]) :
    ∀ (p : TestedPath) (vs : List Spot), (p.under pre).Gives doc u vs ↔ p.Gives doc v vs
  | .core p, vs => by simp only [TestedPath.under, TestedPath.Gives, under_path_one hp]
  | .seq p q, vs => by simp only [TestedPath.under, TestedPath.Gives, under_tested_one hp p]
  | .deep p q, vs => by simp only [TestedPath.under, TestedPath.Gives, under_tested_one hp p]
  | .filter p q, vs => by simp only [TestedPath.under, TestedPath.Gives, under_tested_one hp p]
  | .number p q, vs => by simp only [TestedPath.under, TestedPath.Gives, under_tested_one hp p]
  | .numberThen p k q, vs => by simp only [TestedPath.under, TestedPath.Gives, under_tested_one hp p]

theorem under_testedList_one {doc : Node} {pre : CorePath} {u v : Spot} (hp : ∀ ws, pre.Gives doc u ws ↔ ws = [v]) (l : TestedList) (fs : List Found) :
    (l.under pre).Gives doc u fs ↔ l.Gives doc v fs := by
  cases l with
  | path p => simp only [TestedList.under, TestedList.Gives, under_tested_one hp]
  | core l => exact under_list_one hp l fs
  | seq p l => simp only [TestedList.under, TestedList.Gives, under_tested_one hp]

/-- Relations between lists that go piece by piece. -/
def PieceByPiece {α β : Type} (S : List α → List β → Prop) : Prop := S [] [] ∧ ∀ a b c d, S a b → S c d → S (a ++ c) (b ++ d)

theorem inTurn_pieces {α : Type} (R : Spot → List α → Prop) : PieceByPiece (InTurn R) := by
  refine ⟨rfl, fun a => ?_⟩
  induction a with
  | nil =>
    rintro b c d rfl h
    exact h
  | cons w ws ih =>
    rintro b c d ⟨xs, ys, rfl, h1, h2⟩ h
    exact ⟨xs, ys ++ d, by simp, h1, ih _ _ _ h2 h⟩

theorem onlyThose_pieces (P : Spot → Prop) : PieceByPiece (OnlyThose P) := by
  refine ⟨rfl, fun a => ?_⟩
  induction a with
  | nil =>
    rintro b c d rfl h
    exact h
  | cons w ws ih =>
    rintro b c d (⟨h1, xs, rfl, h2⟩ | ⟨h1, h2⟩) h
    · exact .inl ⟨h1, xs ++ d, rfl, ih _ _ _ h2 h⟩
    · exact .inr ⟨h1, ih _ _ _ h2 h⟩

theorem map_pieces {α β : Type} (f : α → β) : PieceByPiece fun (a : List α) b => b = a.map f :=
  ⟨rfl, by rintro a b c d rfl rfl; simp⟩

/-- What goes piece by piece can be done at the end. -/
theorem inTurn_then_pieces {α β : Type} {R : Spot → List α → Prop} {S : List α → List β → Prop} (hS : PieceByPiece S) : ∀ {ws : List Spot} {vs : List β},
    InTurn (fun w vs => ∃ xs, R w xs ∧ S xs vs) ws vs → ∃ xs, InTurn R ws xs ∧ S xs vs := by
  intro ws
  induction ws with
  | nil => rintro vs rfl; exact ⟨[], rfl, hS.1⟩
  | cons w ws ih =>
    rintro vs ⟨xs, ys, rfl, ⟨zs, h1, h2⟩, h3⟩
    obtain ⟨xs', h4, h5⟩ := ih h3
    exact ⟨zs ++ xs', ⟨zs, xs', rfl, h1, h4⟩, hS.2 _ _ _ _ h2 h5⟩

theorem under_path {doc : Node} {pre : CorePath} {u : Spot} {ws : List Spot} (hp : pre.Gives doc u ws) :
    ∀ (p : CorePath) {vs : List Spot}, InTurn (p.Gives doc) ws vs → (p.under pre).Gives doc u vs := by
  have base : ∀ (p : CorePath) {vs : List Spot}, InTurn (p.Gives doc) ws vs → (CorePath.seq pre p).Gives doc u vs := fun p vs h => ⟨ws, hp, h⟩
  let rec go : ∀ (p : CorePath) {vs : List Spot}, InTurn (p.Gives doc) ws vs → (p.under pre).Gives doc u vs := fun p => match p with
  | .seq p q => by
    intro h
    obtain ⟨xs, h1, h2⟩ := inTurn_then_pieces (inTurn_pieces (q.Gives doc)) (R := p.Gives doc) h
    exact ⟨xs, go p h1, h2⟩
  | .deep p m => by
    intro h
    obtain ⟨xs, h1, h2⟩ := inTurn_then_pieces (inTurn_pieces _) (R := p.Gives doc) h
    exact ⟨xs, go p h1, h2⟩
  | .filter p c => by
    intro h
    obtain ⟨xs, h1, h2⟩ := inTurn_then_pieces (onlyThose_pieces _) (R := p.Gives doc) h
    exact ⟨xs, go p h1, h2⟩
  | .here => base _
  | .up => base _
  | .step _ _ => base _
  | .children => base _
  | .nth _ _ _ => base _
  | .abs _ => base _
  | .anywhere _ => base _
  | .either _ _ => base _
  exact go

theorem under_list {doc : Node} {pre : CorePath} {u : Spot} {ws : List Spot} (hp : pre.Gives doc u ws) (l : CoreList) (hd : l.down = true)
    {fs : List Found} (h : InTurn (l.Gives doc) ws fs) : (l.under pre).Gives doc u fs := by
  cases l with
  | path p =>
    obtain ⟨xs, h1, h2⟩ := inTurn_then_pieces (map_pieces Found.node) (R := p.Gives doc) h
    exact ⟨xs, under_path hp p h1, h2⟩
  | last e => exact ⟨ws, hp, h⟩
  | after p e =>
    obtain ⟨xs, h1, h2⟩ := inTurn_then_pieces (inTurn_pieces _) (R := p.Gives doc) h
    exact ⟨xs, under_path hp p h1, h2⟩
  | allTexts p =>
    obtain ⟨xs, h1, h2⟩ := inTurn_then_pieces (inTurn_pieces _) (R := p.Gives doc) h
    exact ⟨xs, under_path hp p h1, h2⟩
  | abs l => cases hd
  | anywhere l => cases hd

theorem under_tested {doc : Node} {pre : CorePath} {u : Spot} {ws : List Spot} (hp : pre.Gives doc u ws) :
    ∀ (p : TestedPath), p.countsNothing = true → ∀ {vs : List Spot}, InTurn (p.Gives doc) ws vs → (p.under pre).Gives doc u vs
  | .core p, _, _, h => under_path hp p h
  | .seq p q, hc, vs, h => by
    obtain ⟨xs, h1, h2⟩ := inTurn_then_pieces (inTurn_pieces _) (R := p.Gives doc) h
    exact ⟨xs, under_tested hp p hc h1, h2⟩
  | .deep p m, hc, vs, h => by
    obtain ⟨xs, h1, h2⟩ := inTurn_then_pieces (inTurn_pieces _) (R := p.Gives doc) h
    exact ⟨xs, under_tested hp p hc h1, h2⟩
  | .filter p c, hc, vs, h => by
    obtain ⟨xs, h1, h2⟩ := inTurn_then_pieces (onlyThose_pieces _) (R := p.Gives doc) h
    exact ⟨xs, under_tested hp p hc h1, h2⟩
  | .number p k, hc, _, _ => by cases hc
  | .numberThen p k ts, hc, _, _ => by cases hc

theorem under_testedList {doc : Node} {pre : CorePath} {u : Spot} {ws : List Spot} (hp : pre.Gives doc u ws) (l : TestedList) (hd : l.down = true)
    (hc : l.countsNothing = true) {fs : List Found} (h : InTurn (l.Gives doc) ws fs) : (l.under pre).Gives doc u fs := by
  cases l with
  | path p =>
    obtain ⟨xs, h1, h2⟩ := inTurn_then_pieces (map_pieces Found.node) (R := p.Gives doc) h
    exact ⟨xs, under_tested hp p hc h1, h2⟩
  | core l => exact under_list hp l hd h
  | seq p l =>
    obtain ⟨xs, h1, h2⟩ := inTurn_then_pieces (inTurn_pieces _) (R := p.Gives doc) h
    exact ⟨xs, under_tested hp p hc h1, h2⟩

/-! ### how it is written -/

theorem under_ok_path {pre : CorePath} (hp : pre.Ok) : ∀ p : CorePath, p.Ok → (p.under pre).Ok
  | .seq p _, h => ⟨under_ok_path hp p h.1, h.2⟩
  | .deep p _, h => under_ok_path hp p h
  | .filter p _, h => ⟨under_ok_path hp p h.1, h.2⟩
  | .here, h => ⟨hp, h⟩
  | .up, h => ⟨hp, h⟩
  | .step _ _, h => ⟨hp, h⟩
  | .children, h => ⟨hp, h⟩
  | .nth _ _ _, h => ⟨hp, h⟩
  | .abs _, h => ⟨hp, h⟩
  | .anywhere _, h => ⟨hp, h⟩
  | .either _ _, h => ⟨hp, h⟩

theorem under_ok_list {pre : CorePath} (hp : pre.Ok) (l : CoreList) (h : l.Ok) : (l.under pre).Ok := by
  cases l with
  | path p => exact under_ok_path hp p h
  | last e => exact ⟨hp, h⟩
  | after p e => exact ⟨under_ok_path hp p h.1, h.2⟩
  | allTexts p => exact under_ok_path hp p h
  | abs l => exact h
  | anywhere l => exact h

theorem under_ok_tested {pre : CorePath} (hp : pre.Ok) : ∀ p : TestedPath, p.Ok → (p.under pre).Ok
  | .core p, h => under_ok_path hp p h
  | .seq p _, h => ⟨under_ok_tested hp p h.1, h.2⟩
  | .deep p _, h => under_ok_tested hp p h
  | .filter p _, h => ⟨under_ok_tested hp p h.1, h.2⟩
  | .number p _, h => under_ok_tested hp p h
  | .numberThen p _ _, h => ⟨under_ok_tested hp p h.1, h.2⟩

theorem under_ok {pre : CorePath} (hp : pre.Ok) (l : TestedList) (h : l.Ok) : (l.under pre).Ok := by
  cases l with
  | path p => exact under_ok_tested hp p h
  | core l => exact under_ok_list hp l h
  | seq p l => exact ⟨under_ok_tested hp p h.1, h.2⟩

theorem under_step {w : List (X.Tok F)} {p : CorePath} (h : WritesStep w p) (pre : CorePath) : p.under pre = .seq pre p := by
  cases h <;> rfl

theorem writes_under_rel {w wp : List (X.Tok F)} {p pre : CorePath} (hp : WritesRel wp pre) (h : WritesRel w p) :
    WritesRel (wp ++ .pathSep :: w) (p.under pre) := by
  induction h with
  | step h => rw [under_step h]; exact .slash hp h
  | @slash w w' p q h1 h2 ih =>
    rw [show wp ++ X.Tok.pathSep :: (w ++ X.Tok.pathSep :: w') = (wp ++ X.Tok.pathSep :: w) ++ X.Tok.pathSep :: w' by simp]
    exact .slash ih h2
  | @deep w p m h1 h2 ih =>
    rw [show wp ++ X.Tok.pathSep :: (w ++ [X.Tok.abbrevSep, m]) = (wp ++ X.Tok.pathSep :: w) ++ [X.Tok.abbrevSep, m] by simp]
    exact .deep ih h2

theorem writes_end_slash {b : Bool} {w : List (X.Tok F)} {e : CoreEnd} (h : WritesEnd b w e) : WritesEnd true w e := by
  cases h with
  | texts => exact .texts
  | nodes => exact .nodes
  | textsAxis => exact .textsAxis
  | nodesAxis => exact .nodesAxis
  | attr h => exact .attr h
  | attrs => exact .attrs

theorem writes_under_relList {b : Bool} {w wp : List (X.Tok F)} {l : CoreList} {pre : CorePath} (hp : WritesRel wp pre) (h : WritesRelList b w l) :
    WritesRelList b (wp ++ .pathSep :: w) (l.under pre) := by
  cases h with
  | path h => exact .path (writes_under_rel hp h)
  | last h => exact .after hp (writes_end_slash h)
  | @after w w' p e h1 h2 =>
    rw [show wp ++ X.Tok.pathSep :: (w ++ X.Tok.pathSep :: w') = (wp ++ X.Tok.pathSep :: w) ++ X.Tok.pathSep :: w' by simp]
    exact .after (writes_under_rel hp h1) h2
  | @allTexts w p h1 =>
    rw [show ∀ r : List (X.Tok F), wp ++ X.Tok.pathSep :: (w ++ r) = (wp ++ X.Tok.pathSep :: w) ++ r by simp]
    exact .allTexts (writes_under_rel hp h1)

theorem writes_under_tested {wp : List (X.Tok F)} {pre : CorePath} (hp : WritesRel wp pre) : ∀ {k : EndsIn} {w : List (X.Tok F)} {p : TestedPath},
    WritesTested k w p → p.down = true → WritesTested k (wp ++ .pathSep :: w) (p.under pre)
  | _, _, _, .core h, hd => by
    cases h with
    | rel h => exact .core (.rel (writes_under_rel hp h))
    | abs h => cases hd
    | anywhere h => cases hd
  | _, _, _, .filter (w := w) (w' := w') h1 h2 h3, hd => by
    rw [show wp ++ X.Tok.pathSep :: (w ++ w') = (wp ++ X.Tok.pathSep :: w) ++ w' by simp]
    simp only [TestedPath.down, Bool.and_eq_true] at hd
    exact .filter (writes_under_tested hp h1 hd.1) h2 h3
  | _, _, _, .number (w := w) h1 h2, hd => by
    rw [show ∀ r : List (X.Tok F), wp ++ X.Tok.pathSep :: (w ++ r) = (wp ++ X.Tok.pathSep :: w) ++ r by simp]
    exact .number (writes_under_tested hp h1 hd) h2
  | _, _, _, .numberThen (w := w) h1 h2 h3, hd => by
    rw [show ∀ r : List (X.Tok F), wp ++ X.Tok.pathSep :: (w ++ r) = (wp ++ X.Tok.pathSep :: w) ++ r by simp]
    simp only [TestedPath.down, Bool.and_eq_true] at hd
    exact .numberThen (writes_under_tested hp h1 hd.1) h2 h3
  | _, _, _, .seq (w := w) h1 h2, hd => by
    rw [show ∀ r : List (X.Tok F), wp ++ X.Tok.pathSep :: (w ++ r) = (wp ++ X.Tok.pathSep :: w) ++ r by simp]
    simp only [TestedPath.down, Bool.and_eq_true] at hd
    exact .seq (writes_under_tested hp h1 hd.1) h2
  | _, _, _, .deep (w := w) h1 h2, hd => by
    rw [show ∀ r : List (X.Tok F), wp ++ X.Tok.pathSep :: (w ++ r) = (wp ++ X.Tok.pathSep :: w) ++ r by simp]
    exact .deep (writes_under_tested hp h1 hd) h2

/-- A query that looks down with a path and a slash in front of it. -/
theorem writes_under {wp : List (X.Tok F)} {pre : CorePath} (hp : WritesRel wp pre) {b : Bool} {w : List (X.Tok F)} {l : TestedList}
    (h : WritesTestedList b w l) (hd : l.down = true) : WritesTestedList b (wp ++ .pathSep :: w) (l.under pre) := by
  cases h with
  | path h => exact .path (writes_under_tested hp h hd)
  | core h =>
    cases h with
    | rel h => exact .core (.rel (writes_under_relList hp h))
    | abs h => cases hd
    | anywhere h => cases hd
  | @seq w w' p l h1 h2 =>
    rw [show wp ++ X.Tok.pathSep :: (w ++ X.Tok.pathSep :: w') = (wp ++ X.Tok.pathSep :: w) ++ X.Tok.pathSep :: w' by simp]
    simp only [TestedList.down, Bool.and_eq_true] at hd
    exact .seq (writes_under_tested hp h1 hd.1) h2

/-- The tokens of `n/m₁/…/mₖ`. -/
def nameTokens (n : Str) (ms : List Str) : List (X.Tok F) := X.nameTok n :: ms.flatMap fun m => [.pathSep, X.nameTok m]

theorem names_snoc (n : Str) (ms : List Str) (m : Str) : CorePath.names n (ms ++ [m]) = .seq (.names n ms) (.step .child m) := by
  simp [CorePath.names]

theorem writes_names (n : Str) (ms : List Str) : WritesRel (nameTokens (F := F) n ms) (.names n ms) := by
  induction ms using list_snoc_induct with
  | h0 =>
    have h := nameTok_word (F := F) n
    have := WritesRel.step (WritesStep.child h.1)
    rw [h.2] at this
    exact this
  | h1 ms m ih =>
    have h := nameTok_word (F := F) m
    have := WritesRel.slash ih (WritesStep.child h.1)
    rw [h.2] at this
    rw [names_snoc, nameTokens, List.flatMap_append, ← List.cons_append]
    exact this

theorem names_ok (n : Str) (ms : List Str) : (CorePath.names n ms).Ok := by
  induction ms using list_snoc_induct with
  | h0 => trivial
  | h1 ms m ih => rw [names_snoc]; exact ⟨ih, trivial⟩

theorem names_expr (n : Str) (ms : List Str) : (CorePath.names n ms).expr = nameExpr (F := F) n ms := by
  induction ms using list_snoc_induct with
  | h0 => rfl
  | h1 ms m ih => rw [names_snoc, nameExpr_snoc, ← ih]; rfl

/-! ### C172 -/

theorem record_plain {d x : Node} {q : Path} (hq : d.at? q = some x) (hd : d.NoEmptyText) : x.NoEmptyText := by
  intro p hp
  exact hd (q ++ p) (by rw [moved_at hq]; exact hp)

theorem record_dicts {d x : Node} {q : Path} (hq : d.at? q = some x) (hd : d.Dicts) : x.Dicts := by
  intro p m as cs hp
  exact hd (q ++ p) m as cs (by rw [moved_at hq]; exact hp)

theorem children_of_root {x : Node} (hd : x.NoEmptyText) (hdict : x.Dicts) (hx : x.isText = false) (ws : List Spot) :
    CorePath.children.Gives x .root ws ↔ ws = [.at []] := by
  obtain ⟨vs, h, _⟩ := C162_one_list hd hdict (p := .children) trivial (u := .root) trivial
  have : CorePath.children.Gives x .root [.at []] := by
    refine ⟨[[]], rfl, by simp, fun q => ?_⟩
    constructor
    · intro hq
      rw [List.mem_singleton.1 hq]
      refine ⟨rfl, ?_⟩
      cases x with
      | text => cases hx
      | elem m as cs => exact ⟨m, as, cs, rfl⟩
    · rintro ⟨rfl, _⟩
      exact List.mem_singleton.2 rfl
  rw [h ws, (h _).1 this]

theorem item_moved (q : Path) (f : Found) : (f.moved q).item = (f.item : Item F).moved q := by
  cases f with
  | node v => cases v <;> rfl
  | attr => rfl

theorem item_inj {f g : Found} (h : (f.item : Item F) = g.item) : f = g := by
  cases f with
  | node v => cases g with
    | node u => cases v <;> cases u <;> simp_all [Found.item, Spot.item]
    | attr => cases v <;> simp [Found.item, Spot.item] at h
  | attr => cases g with
    | node u => cases u <;> simp [Found.item, Spot.item] at h
    | attr => simp_all [Found.item]

theorem items_inj {fs gs : List Found} (h : (fs.map Found.item : List (Item F)) = gs.map Found.item) : fs = gs := by
  induction fs generalizing gs with
  | nil => cases gs with
    | nil => rfl
    | cons => cases h
  | cons f fs ih => cases gs with
    | nil => cases h
    | cons g gs =>
      simp only [List.map_cons, List.cons.injEq] at h
      rw [item_inj h.1, ih h.2]

theorem nodes_inj : ∀ {vs us : List Spot}, vs.map Found.node = us.map Found.node → vs = us
  | [], [], _ => rfl
  | [], _ :: _, h => by cases h
  | _ :: _, [], h => by cases h
  | v :: vs, u :: us, h => by
    simp only [List.map_cons, List.cons.injEq, Found.node.injEq] at h
    rw [h.1, nodes_inj h.2]

theorem moved_line {d x : Node} {q : Path} (hq : d.at? q = some x) (f : Found) (s : Str) : d.LineOf (f.moved q) s ↔ x.LineOf f s := by
  cases f with
  | node v => cases v with
    | root => exact Iff.rfl
    | «at» p => simp only [Found.moved, Node.LineOf, moved_at hq]
  | attr => exact Iff.rfl

theorem moved_lines {d x : Node} {q : Path} (hq : d.at? q = some x) : ∀ (fs : List Found) (ls : List Str),
    d.LinesOf (fs.map (Found.moved q)) ls ↔ x.LinesOf fs ls := by
  intro fs
  induction fs with
  | nil => exact fun _ => Iff.rfl
  | cons f fs ih =>
    intro ls
    simp only [List.map_cons, Node.LinesOf, moved_line hq, ih]

theorem elemAt_of {d : Node} {q : Path} {x : Node} (hq : d.at? q = some x) (hx : x.isText = false) : d.ElemAt q := by
  cases x with
  | text => cases hx
  | elem m as cs => exact ⟨m, as, cs, hq⟩

/-- What a query that looks down finds from an element does not depend on what is around the element. -/
theorem gives_moved {d : Node} (hd : d.NoEmptyText) (hdict : d.Dicts) {q : Path} {x : Node} (hq : d.at? q = some x) (hx : x.isText = false)
    {l : TestedList} (hl : l.Ok) (hdn : l.down = true) {fs : List Found} (hg : l.Gives x (.at []) fs) :
    l.Gives d (.at q) (fs.map (Found.moved q)) := by
  have hxe : x.ElemAt [] := elemAt_of rfl hx
  have hqe : d.ElemAt q := elemAt_of hq hx
  have hd' := record_plain hq hd
  have hdict' := record_dicts hq hdict
  have a := C152_only_the_element_counts (queryEnv noFloats (fun _ => none) d) hq (down_testedList (queryEnv noFloats (fun _ => none) d) l hdn) 0 (x := .node []) (by intro h; cases h)
  have b := (C166_exactly (queryEnv noFloats (fun _ => none) x) hd' hdict' 0 hl (u := .at []) hxe _).2 ⟨fs, hg, rfl⟩
  have c : (queryEnv noFloats (fun _ => none) d).Yields 0 l.expr (Spot.at q).item ((fs.map Found.item).map (Item.moved q)) := by
    rw [Env.Yields] at b ⊢
    simp only [Item.moved, List.append_nil] at a
    refine a.trans ?_
    rw [show ({ queryEnv noFloats (fun _ => none) d with doc := x } : Env NoF).run 0 l.expr (.node []) = _ from b]
    rfl
  obtain ⟨gs, g1, g2⟩ := (C166_exactly (queryEnv noFloats (fun _ => none) d) hd hdict 0 hl (u := .at q) hqe _).1 c
  have : gs = fs.map (Found.moved q) := by
    apply items_inj (F := NoF)
    rw [← g2]
    simp only [List.map_map]
    exact List.map_congr_left fun f _ => (item_moved q f).symm
  rw [← this]
  exact g1

/-- C172: a record, cut out of a document at position `q`, is asked `*/l`, where the query `l` with tests only looks down.  It finds in
the record, position for position, what `l` finds in the document from the record's element: what Spec/MeaningTests says, in
that order; and the lines for it are the same. -/
theorem C172_asking_a_record (fo : FloatOps F) (vars : Str → Option (Item F)) (k : Nat) {d : Node} (hd : d.NoEmptyText) (hdict : d.Dicts) {q : Path}
    {x : Node} (hq : d.at? q = some x) (hx : x.isText = false) {l : TestedList} (hl : l.Ok) (hdn : l.down = true) {s : Str}
    (hs : X.xparse fo s = some (.ok (l.under .children).expr)) :
    ∃ fs : List Found, xmlXPath fo vars k x [] (.str s) = ⟨fs.map Found.item, .done⟩ ∧ l.Gives d (.at q) (fs.map (Found.moved q)) ∧
      ∀ ls, x.LinesOf fs ls ↔ d.LinesOf (fs.map (Found.moved q)) ls := by
  have hxe : x.ElemAt [] := by
    cases x with
    | text => cases hx
    | elem m as cs => exact ⟨m, as, cs, rfl⟩
  have hd' := record_plain hq hd
  have hdict' := record_dicts hq hdict
  obtain ⟨fs, hf⟩ := C166_one_list hd' hdict' hl (u := .at []) hxe
  have hg : l.Gives x (.at []) fs := (hf fs).2 rfl
  have hu : (l.under .children).Gives x .root fs := (under_testedList_one (children_of_root hd' hdict' hx) l fs).2 hg
  refine ⟨fs, ?_, ?_, fun ls => (moved_lines hq fs ls).symm⟩
  · have h1 := (C166_exactly (queryEnv fo vars x) hd' hdict' k (under_ok (pre := .children) trivial l hl) (u := .root) trivial _).2 ⟨fs, hu, rfl⟩
    simp only [xmlXPath, parseText_eq hs, contextItem, if_true]
    exact h1
  · exact gives_moved hd hdict hq hx hl hdn hg

/-- The places along the names are given in document order. -/
theorem names_give {d : Node} (hd : d.NoEmptyText) (hdict : d.Dicts) {n : Str} {ms : List Str} {l : List (Path × Node)} (ho : InDocOrder l)
    (hl : ∀ q x, (q, x) ∈ l ↔ d.at? q = some x ∧ d.Named n [] ∧ d.Along [] ms q) :
    (CorePath.names n ms).Gives d .root (l.map fun r => .at r.1) := by
  obtain ⟨qs, h1, h2, h3, h4⟩ := names_from_root (queryEnv noFloats (fun _ => none) d) hd 0 n ms
  have hq : qs = l.map Prod.fst := by
    refine docOrder_same h4 (List.pairwise_map.2 ho) fun q => ?_
    rw [h2 q, List.mem_map]
    constructor
    · intro hq
      obtain ⟨⟨m, as, cs, hm⟩, _⟩ := h3 q ((h2 q).2 hq)
      exact ⟨(q, .elem m as cs), (hl _ _).2 ⟨hm, hq⟩, rfl⟩
    · rintro ⟨⟨q', x⟩, hr, rfl⟩
      exact ((hl _ _).1 hr).2
  rw [← names_expr] at h1
  obtain ⟨vs, g1, g2⟩ := (C162_exactly (queryEnv noFloats (fun _ => none) d) hd hdict 0 (names_ok n ms) (u := .root) trivial _).1 h1
  have : vs = l.map fun r => .at r.1 := by
    apply nodes_inj
    apply items_inj (F := NoF)
    simp only [List.map_map]
    rw [hq] at g2
    simp only [List.map_map] at g2
    exact g2.symm
  rw [← this]
  exact g1

/-- C172: the query on the whole tree and the queries on the records, for records at the places a path gives. -/
theorem stream_tests_of (fo : FloatOps F) (vars : Str → Option (Item F)) (k : Nat) {d : Node} (hd : d.NoEmptyText) (hdict : d.Dicts)
    {pre : CorePath} (hpre : pre.Ok) {wp : List (X.Tok F)} (hwp : WritesRel wp pre) {recs : List (Path × Node)}
    (hgive : pre.Gives d .root (recs.map fun r => .at r.1)) (hel : ∀ q x, (q, x) ∈ recs → d.at? q = some x ∧ x.isText = false)
    {l : TestedList} (hl : l.Ok) (hdn : l.down = true) {b : Bool} {wl : List (X.Tok F)} (hw : WritesTestedList b wl l) :
    (∀ s, X.Written fo (.star :: .pathSep :: wl) s → ∀ q x, (q, x) ∈ recs →
      ∃ fs : List Found, xmlXPath fo vars k x [] (.str s) = ⟨fs.map Found.item, .done⟩ ∧ l.Gives d (.at q) (fs.map (Found.moved q)) ∧
        ∀ ls, x.LinesOf fs ls ↔ d.LinesOf (fs.map (Found.moved q)) ls) ∧
    (l.countsNothing = true → ∀ s, X.Written fo (wp ++ .pathSep :: wl) s →
      ∃ fs : List Found, InTurn (l.Gives d) (recs.map fun r => .at r.1) fs ∧ xmlXPath fo vars k d [] (.str s) = ⟨fs.map Found.item, .done⟩) := by
  constructor
  · intro s hs q x hq
    exact C172_asking_a_record fo vars k hd hdict (hel q x hq).1 (hel q x hq).2 hl hdn
      (C167_is_read fo (writes_under (wp := [.star]) (.step .children) hw hdn) hs)
  · intro hc s hs
    have hparse := C167_is_read fo (writes_under hwp hw hdn) hs
    obtain ⟨fs, h1⟩ := inTurn_make (R := l.Gives d) (recs.map fun r => .at r.1) (by
      intro w hw
      obtain ⟨r, hr', rfl⟩ := List.mem_map.1 hw
      obtain ⟨h2, h3⟩ := hel r.1 r.2 hr'
      have : d.ElemAt r.1 := by
        cases hx : r.2 with
        | text => rw [hx] at h3; cases h3
        | elem m as cs => exact ⟨m, as, cs, by rw [h2, hx]⟩
      obtain ⟨gs, hg⟩ := C166_one_list hd hdict hl (u := .at r.1) this
      exact ⟨gs, (hg gs).2 rfl⟩)
    refine ⟨fs, h1, ?_⟩
    have h2 := under_testedList hgive l hdn hc h1
    have h3 := (C166_exactly (queryEnv fo vars d) hd hdict k (under_ok hpre l hl) (u := .root) trivial _).2 ⟨fs, h2, rfl⟩
    simp only [xmlXPath, parseText_eq hparse, contextItem, if_true]
    exact h3

/-- C172: the same for the elements along names. -/
theorem stream_tests (fo : FloatOps F) (vars : Str → Option (Item F)) (k : Nat) {d : Node} (hd : d.NoEmptyText) (hdict : d.Dicts) {n : Str}
    {ms : List Str} {recs : List (Path × Node)} (ho : InDocOrder recs)
    (hr : ∀ q x, (q, x) ∈ recs ↔ d.at? q = some x ∧ d.Named n [] ∧ d.Along [] ms q) {l : TestedList} (hl : l.Ok) (hdn : l.down = true)
    {b : Bool} {wl : List (X.Tok F)} (hw : WritesTestedList b wl l) :
    (∀ s, X.Written fo (.star :: .pathSep :: wl) s → ∀ q x, (q, x) ∈ recs →
      ∃ fs : List Found, xmlXPath fo vars k x [] (.str s) = ⟨fs.map Found.item, .done⟩ ∧ l.Gives d (.at q) (fs.map (Found.moved q)) ∧
        ∀ ls, x.LinesOf fs ls ↔ d.LinesOf (fs.map (Found.moved q)) ls) ∧
    (l.countsNothing = true → ∀ s, X.Written fo (nameTokens n ms ++ .pathSep :: wl) s →
      ∃ fs : List Found, InTurn (l.Gives d) (recs.map fun r => .at r.1) fs ∧ xmlXPath fo vars k d [] (.str s) = ⟨fs.map Found.item, .done⟩) := by
  refine stream_tests_of fo vars k hd hdict (names_ok n ms) (writes_names n ms) (names_give hd hdict ho hr) (fun q x hq => ?_) hl hdn hw
  obtain ⟨h1, h2, h3⟩ := (hr q x).1 hq
  exact ⟨h1, along_isElem h1 h2 h3⟩

/-- C172: feed a document to a tree sender with the pattern `(n, m₁, …, mₖ)` and ask each record `*/l`.  The records are the elements along
the names, in document order; asking a record gives what `l` finds from its element in the whole document; and, unless `l` has a number in
brackets that counts, the query `n/m₁/…/mₖ/l` on the whole document gives just that, for one record after the other. -/
theorem C172_stream_and_tree (fo : FloatOps F) (vars : Str → Option (Item F)) (k : Nat) {d : Node} {w : Str} (h : IsDoc d w) {n : Str}
    {ms : List Str} (hm : ∀ m ∈ n :: ms, IsTestName m) :
    ∃ os recs, (newSender [stringPattern (n :: ms)]).parse w = (os, some (newSender [stringPattern (n :: ms)])) ∧
      (os.map (sentTo 0)).flatten = recs.map Prod.snd ∧ InDocOrder recs ∧
      (∀ q x, (q, x) ∈ recs ↔ d.at? q = some x ∧ d.Named n [] ∧ d.Along [] ms q) ∧
      ∀ {l : TestedList}, l.Ok → l.down = true → ∀ {b : Bool} {wl : List (X.Tok F)}, WritesTestedList b wl l →
        (∀ s, X.Written fo (.star :: .pathSep :: wl) s → ∀ q x, (q, x) ∈ recs →
          ∃ fs : List Found, xmlXPath fo vars k x [] (.str s) = ⟨fs.map Found.item, .done⟩ ∧ l.Gives d (.at q) (fs.map (Found.moved q)) ∧
            ∀ ls, x.LinesOf fs ls ↔ d.LinesOf (fs.map (Found.moved q)) ls) ∧
        (l.countsNothing = true → ∀ s, X.Written fo (nameTokens n ms ++ .pathSep :: wl) s →
          ∃ fs : List Found, InTurn (l.Gives d) (recs.map fun r => .at r.1) fs ∧
            ∀ a, QQuery fo vars k (.str w) (.str s) a ↔ a = .items d ⟨fs.map Found.item, .done⟩) := by
  obtain ⟨os, recs, a1, a2, a3, a4⟩ := C33_all_sent_partial h (stringPattern (n :: ms)) (by simp [stringPattern]) (stringPattern_safe hm)
  have hr := records_along hm a4
  refine ⟨os, recs, a1, a2, a3, hr, fun {l} hl hdn {b wl} hw => ?_⟩
  obtain ⟨b1, b2⟩ := stream_tests fo vars k (doc_noEmpty h) (fun p m as cs hp => doc_dicts h hp) a3 hr hl hdn hw
  refine ⟨b1, fun hc s hs => ?_⟩
  obtain ⟨fs, c1, c2⟩ := b2 hc s hs
  refine ⟨fs, c1, fun a => ?_⟩
  rw [(C85_ways_to_ask_partial fo vars k _).2.2 d w a h, c2]

/-- C172: the same for full XML, fed in pieces to an `xmliter.sender`; the tree `d` is the one all the callbacks of expat stand for. -/
theorem C172_xml_stream_and_tree (fo : FloatOps F) (vars : Str → Option (Item F)) (k : Nat) {d : Node} (hd : d.isText = false)
    (hne : d.NoEmptyText) (hdict : d.Dicts) {pieces : List (List XCall)} (hr : Reports pieces.flatten (d.events [])) {n : Str} {ms : List Str}
    (hm : ∀ m ∈ n :: ms, IsTestName m) (self : Id) :
    let calls := (newXSender [stringPattern (n :: ms)]).feeds takesAll self .new (goodCalls pieces)
    (∀ c ∈ calls.1, c.2 = false) ∧ ∃ recs, calls.2.1.got 0 = recs.map Prod.snd ∧ InDocOrder recs ∧
      (∀ q x, (q, x) ∈ recs ↔ d.at? q = some x ∧ d.Named n [] ∧ d.Along [] ms q) ∧
      ∀ {l : TestedList}, l.Ok → l.down = true → ∀ {b : Bool} {wl : List (X.Tok F)}, WritesTestedList b wl l →
        (∀ s, X.Written fo (.star :: .pathSep :: wl) s → ∀ q x, (q, x) ∈ recs →
          ∃ fs : List Found, xmlXPath fo vars k x [] (.str s) = ⟨fs.map Found.item, .done⟩ ∧ l.Gives d (.at q) (fs.map (Found.moved q)) ∧
            ∀ ls, x.LinesOf fs ls ↔ d.LinesOf (fs.map (Found.moved q)) ls) ∧
        (l.countsNothing = true → ∀ s, X.Written fo (nameTokens n ms ++ .pathSep :: wl) s →
          ∃ fs : List Found, InTurn (l.Gives d) (recs.map fun r => .at r.1) fs ∧ xmlXPath fo vars k d [] (.str s) = ⟨fs.map Found.item, .done⟩) := by
  obtain ⟨l, a1, a2, a3⟩ := C145_records hd hr (p := stringPattern (n :: ms)) (by simp [stringPattern]) (stringPattern_safe hm) self [] []
  obtain ⟨b1, l1, _, b3, _, b5, _⟩ := a3 pieces [] (by simp)
  have := b3 rfl
  subst this
  exact ⟨b1, l1, b5, a1, records_along hm a2, fun {l} hl hdn {b wl} hw => stream_tests fo vars k hne hdict a1 (records_along hm a2) hl hdn hw⟩

/-- `n[.='z' ]` and `n[2]`. -/
def exZ : TestedList := .path (.filter (.core (.step .child ['n'])) (.one (.is (.path (.core .here)) ['z'])))
def exSecond : TestedList := .path (.number (.core (.step .child ['n'])) 2)

-- the query, its tokens and its text are as the theorems want them
example : exZ.Ok ∧ exZ.down = true ∧ exZ.countsNothing = true ∧
    WritesTestedList (F := F) false [.name ['n'], .lbrack, .dot, .equal false, .literal ['z'], .rbrack] exZ := by
  have hn := WritesPath.rel (F := F) (.step (.child (m := .name ['n']) trivial))
  exact ⟨by simp [exZ, TestedList.Ok, TestedPath.Ok, Tests.Ok, ValueTest.Ok, CorePath.Ok], rfl, rfl,
    .path (.filter (.core hn) (by simp) (.one (.is (s := ['z']) (.path (.core (.rel (.step .here)))))))⟩

theorem asked_parsed {fo : FloatOps F} {vars : Str → Option (Item F)} {k : Nat} {x : Node} {s : Str} {e : Expr F} (h : X.xparse fo s = some (.ok e)) :
    xmlXPath fo vars k x [] (.str s) = xmlXPath fo vars k x [] (.parsed e) := by
  simp only [xmlXPath, parseText_eq h]

-- `d/r/n[.='z']` on three records is `*/n[.='z']` on each
example : xmlXPath noFloats (fun _ => none) 0 exRecords [] (.str "d/r/n[.='z']".toList) = ⟨[.node [3, 1]], .done⟩ ∧
    xmlXPath noFloats (fun _ => none) 0 (.elem ['r'] [] [.elem ['n'] [] [.text ['x']]]) [] (.str "*/n[.='z']".toList) = ⟨[], .done⟩ ∧
    xmlXPath noFloats (fun _ => none) 0 (.elem ['r'] [] [.elem ['n'] [] [.text ['y']], .elem ['n'] [] [.text ['z']]]) []
      (.str "*/n[.='z']".toList) = ⟨[.node [1]], .done⟩ := by
  have h1 : X.xparse noFloats "*/n[.='z']".toList = some (.ok (exZ.under .children).expr) := by with_unfolding_all rfl
  have h2 : X.xparse noFloats "d/r/n[.='z']".toList = some (.ok (exZ.under (.names ['d'] [['r']])).expr) := by with_unfolding_all rfl
  rw [asked_parsed h1, asked_parsed h1, asked_parsed h2]
  decide +kernel

/-- C172: a number in brackets counts what is found in all the records: `d/r/n[2]` is the second `n` in the document, the first of the
third record, while `*/n[2]` on that record is its second `n`. -/
theorem C172_numbers_count_across_records : exSecond.down = true ∧ exSecond.countsNothing = false ∧
    X.xparse noFloats "*/n[2]".toList = some (.ok (exSecond.under .children).expr) ∧
    X.xparse noFloats "d/r/n[2]".toList = some (.ok (exSecond.under (.names ['d'] [['r']])).expr) ∧
    xmlXPath noFloats (fun _ => none) 0 exRecords [] (.str "d/r/n[2]".toList) = ⟨[.node [3, 0]], .done⟩ ∧
    exRecords.at? [3] = some (.elem ['r'] [] [.elem ['n'] [] [.text ['y']], .elem ['n'] [] [.text ['z']]]) ∧
    xmlXPath noFloats (fun _ => none) 0 (.elem ['r'] [] [.elem ['n'] [] [.text ['y']], .elem ['n'] [] [.text ['z']]]) []
      (.str "*/n[2]".toList) = ⟨[.node [1]], .done⟩ := by
  have h1 : X.xparse noFloats "*/n[2]".toList = some (.ok (exSecond.under .children).expr) := by with_unfolding_all rfl
  have h2 : X.xparse noFloats "d/r/n[2]".toList = some (.ok (exSecond.under (.names ['d'] [['r']])).expr) := by with_unfolding_all rfl
  rw [asked_parsed h1, asked_parsed h2]
  refine ⟨rfl, rfl, h1, h2, by decide +kernel, rfl, by decide +kernel⟩

end Amara
