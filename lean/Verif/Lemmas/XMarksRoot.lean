import Verif.Lemmas.XMarks
import Verif.Props.TreeUtil
/-
Lemmas for C158: queries that never yield the root node.
-/
namespace Amara

variable {F : Type}

/-- No item is the root node. -/
def Res.NoRoot (r : Res F) : Prop := ∀ y ∈ r.items, y.isRoot = false

variable {doc : Node}

theorem noRoot_toStrItem (fo : FloatOps F) (doc : Node) (x : Item F) : (x.toStrItem fo doc).isRoot = false := by
  unfold Item.toStrItem
  split
  · rename_i h
    cases x <;> first | rfl | cases h
  · rfl

theorem noRoot_nil {t : Tail} : Res.NoRoot (⟨[], t⟩ : Res F) := fun _ h => by cases h

theorem noRoot_fail {e : XErr} : Res.NoRoot (.fail e : Res F) := noRoot_nil

theorem noRoot_one {y : Item F} (h : y.isRoot = false) : Res.NoRoot (.one y) := fun z hz => by
  rw [show z = y from List.mem_singleton.1 hz]; exact h

theorem noRoot_orDefault {a : Res F} {d : Item F} {f : Item F → Res F} (hf : ∀ y, (f y).NoRoot) : (a.orDefault d f).NoRoot := by
  unfold Res.orDefault
  split
  · exact hf _
  · exact hf _
  · exact noRoot_nil

theorem noRoot_need {a : Res F} {f : Item F → Res F} (hf : ∀ y, (f y).NoRoot) : (a.need f).NoRoot := by
  unfold Res.need
  split
  · exact hf _
  · exact noRoot_fail
  · exact noRoot_nil

theorem noRoot_append {a b : Res F} (ha : a.NoRoot) (hb : b.NoRoot) : (a.append b).NoRoot := by
  unfold Res.append
  split
  · intro y hy
    rcases List.mem_append.1 hy with h | h
    · exact ha y h
    · exact hb y h
  · exact ha

theorem noRoot_bindList {f : Item F → Res F} (hf : ∀ y, (f y).NoRoot) (t : Tail) : ∀ xs, (Res.bindList f t xs).NoRoot
  | [] => noRoot_nil
  | x :: r => noRoot_append (hf x) (noRoot_bindList hf t r)

theorem noRoot_pred {f : Nat → Item F → Bool ⊕ Tail} (t : Tail) : ∀ (xs : List (Item F)) (p : Nat), (∀ y ∈ xs, y.isRoot = false) →
    (predLoop f t p xs).NoRoot
  | [], _, _ => noRoot_nil
  | x :: r, p, h => by
    rw [predLoop]
    split
    · exact noRoot_nil
    · have ih := noRoot_pred (f := f) t r (p + 1) fun y hy => h y (List.mem_cons_of_mem _ hy)
      simp only []
      split
      · intro y hy
        rcases List.mem_cons.1 hy with rfl | hy
        · exact h _ List.mem_cons_self
        · exact ih y hy
      · exact ih


theorem noRoot_stepAttr (fo : FloatOps F) (n : Nat) (t : Test) (x : Item F) : (stepRes fo doc n .attribute t x).NoRoot := by
  have hat : ∀ (p : Path) (as : List (Str × Str)), Res.NoRoot (⟨as.map fun kv => Item.attr p kv.1 kv.2, .done⟩ : Res F) := by
    intro p as y hy
    obtain ⟨kv, _, rfl⟩ := List.mem_map.1 hy
    rfl
  simp only [stepRes]
  split <;> (try split) <;> first | exact noRoot_nil | exact hat _ _

theorem noRoot_eqRes (fo : FloatOps F) (l r : Res F) : (eqRes fo doc l r).NoRoot := by
  unfold eqRes
  split
  · split
    · exact noRoot_one rfl
    · exact noRoot_nil
  · split
    · exact noRoot_one rfl
    · split
      · exact noRoot_one rfl
      · exact noRoot_nil
    · exact noRoot_nil


theorem noRoot_toNum (fo : FloatOps F) (x : Item F) : (x.toNum fo doc).NoRoot := by
  unfold Item.toNum
  split
  · exact noRoot_one rfl
  · exact noRoot_one rfl
  · exact noRoot_one rfl
  · split
    · exact noRoot_one rfl
    · exact noRoot_fail

theorem noRoot_intArg (fo : FloatOps F) (e : Expr F) {f : Int → Res F} (hf : ∀ i, (f i).NoRoot) : (intArg fo doc e f).NoRoot := by
  unfold intArg
  split
  · refine noRoot_need fun v => ?_
    split
    · exact hf _
    · exact hf _
    · split
      · exact hf _
      · exact noRoot_fail
    · exact noRoot_fail
  · exact noRoot_fail

theorem noRoot_str2 (fo : FloatOps F) {f : Str → Str → Res F} (hf : ∀ s u, (f s u).NoRoot) (rs : List (Res F)) :
    (fnStr2 fo doc f rs).NoRoot := by
  unfold fnStr2
  split
  · exact noRoot_orDefault fun _ => noRoot_orDefault fun _ => hf _ _
  · exact noRoot_fail

theorem noRoot_ite {p : Prop} [Decidable p] {a b : Res F} (ha : p → a.NoRoot) (hb : ¬ p → b.NoRoot) :
    (if p then a else b).NoRoot := by
  split
  · rename_i h; exact ha h
  · rename_i h; exact hb h

theorem noRoot_call (fo : FloatOps F) (dyn : Str → Except XErr (Item F → Res F)) (x : Item F) {m : Str} (hm : m ≠ "for-each".toList)
    (es : List (Expr F)) (rs : List (Res F)) : (callFn fo doc dyn x m es rs).NoRoot := by
  have hconst : ∀ y : Item F, y.isRoot = false → (fnConst (.one y) rs).NoRoot := by
    intro y hy
    unfold fnConst
    split
    · exact noRoot_one hy
    · exact noRoot_fail
  have htodo : ∀ k, (fnTodo k rs : Res F).NoRoot := by
    intro k
    unfold fnTodo
    split <;> exact noRoot_fail
  have hpart : ∀ u c : Str, Res.NoRoot (if u = [] then Res.fail .value else .one (.str c) : Res F) := by
    intro u c
    split
    · exact noRoot_fail
    · exact noRoot_one rfl
  have h1 : (fnName doc x rs).NoRoot := by
    unfold fnName
    split
    · exact noRoot_one rfl
    · exact noRoot_orDefault fun _ => noRoot_one rfl
    · exact noRoot_fail
  have h2 : (fnCount rs).NoRoot := by
    unfold fnCount
    split
    · split
      · exact noRoot_one rfl
      · exact noRoot_nil
    · exact noRoot_fail
  have h3 : (fnString fo doc x rs).NoRoot := by
    unfold fnString
    split
    · exact noRoot_one (noRoot_toStrItem fo doc x)
    · exact noRoot_orDefault fun y => noRoot_one (noRoot_toStrItem fo doc y)
    · exact noRoot_fail
  have h4 : (concatRes fo doc rs).NoRoot := by
    unfold concatRes
    simp only []
    split
    · exact noRoot_one rfl
    · exact noRoot_nil
  have h5 : (fnSubstring fo doc es rs).NoRoot := by
    unfold fnSubstring
    split
    · split
      · exact noRoot_orDefault fun _ => noRoot_intArg fo _ fun _ => noRoot_intArg fo _ fun _ => noRoot_one rfl
      · exact noRoot_fail
    · exact noRoot_fail
  have h6 : (fnLength doc rs).NoRoot := by
    unfold fnLength
    split
    · exact noRoot_fail
    · refine noRoot_orDefault fun y => ?_
      split
      · exact noRoot_one rfl
      · exact noRoot_fail
    · exact noRoot_fail
  have h7 : (fnBoolean fo doc rs).NoRoot := by
    unfold fnBoolean
    split
    · exact noRoot_orDefault fun _ => noRoot_one rfl
    · exact noRoot_fail
  have h8 : (fnNot fo doc rs).NoRoot := by
    unfold fnNot
    split
    · exact noRoot_orDefault fun _ => noRoot_one rfl
    · exact noRoot_fail
  have h9 : (fnNumber fo doc rs).NoRoot := by
    unfold fnNumber
    split
    · exact noRoot_one rfl
    · exact noRoot_orDefault fun _ => noRoot_toNum fo _
    · exact noRoot_fail
  unfold callFn
  refine noRoot_ite (fun _ => h1) fun _ => ?_
  refine noRoot_ite (fun _ => hconst _ rfl) fun _ => ?_
  refine noRoot_ite (fun _ => h2) fun _ => ?_
  refine noRoot_ite (fun _ => h3) fun _ => ?_
  refine noRoot_ite (fun _ => h4) fun _ => ?_
  refine noRoot_ite (fun _ => noRoot_str2 fo (fun _ _ => noRoot_one rfl) rs) fun _ => ?_
  refine noRoot_ite (fun _ => noRoot_str2 fo (fun _ _ => noRoot_one rfl) rs) fun _ => ?_
  refine noRoot_ite (fun _ => noRoot_str2 fo (fun _ _ => hpart _ _) rs) fun _ => ?_
  refine noRoot_ite (fun _ => noRoot_str2 fo (fun _ _ => hpart _ _) rs) fun _ => ?_
  refine noRoot_ite (fun _ => h5) fun _ => ?_
  refine noRoot_ite (fun _ => h6) fun _ => ?_
  refine noRoot_ite (fun _ => h7) fun _ => ?_
  refine noRoot_ite (fun _ => h8) fun _ => ?_
  refine noRoot_ite (fun _ => hconst _ rfl) fun _ => ?_
  refine noRoot_ite (fun _ => hconst _ rfl) fun _ => ?_
  refine noRoot_ite (fun _ => h9) fun _ => ?_
  refine noRoot_ite (fun h => absurd h hm) fun _ => ?_
  refine noRoot_ite (fun _ => noRoot_str2 fo (fun _ _ => noRoot_fail) rs) fun _ => ?_
  refine noRoot_ite (fun _ => htodo _) fun _ => ?_
  exact noRoot_ite (fun _ => htodo _) fun _ => noRoot_fail


theorem noRoot_test {t : Test} (ht : t.notRoot = true) (x : Item F) : ∀ y ∈ t.compute doc x, y.isRoot = false := by
  intro y hy
  cases t with
  | star => cases ht
  | node => cases ht
  | name n =>
    cases x with
    | node p =>
      simp only [Test.compute] at hy
      split at hy
      · split at hy
        · rw [List.mem_singleton.1 hy]; rfl
        · cases hy
      · cases hy
    | _ => cases hy
  | text =>
    simp only [Test.compute] at hy
    split at hy
    · rename_i h
      rw [List.mem_singleton.1 hy]
      cases x <;> first | rfl | cases h
    · cases hy

/-- Any test yields the item it is given. -/
theorem compute_self (t : Test) (x : Item F) : ∀ y ∈ t.compute doc x, y = x := by
  intro y hy
  cases t with
  | star => exact List.mem_singleton.1 hy
  | node =>
    simp only [Test.compute] at hy
    split at hy
    · exact List.mem_singleton.1 hy
    · cases hy
  | name n =>
    cases x with
    | node p =>
      simp only [Test.compute] at hy
      split at hy
      · split at hy
        · exact List.mem_singleton.1 hy
        · cases hy
      · cases hy
    | _ => cases hy
  | text =>
    simp only [Test.compute] at hy
    split at hy
    · exact List.mem_singleton.1 hy
    · cases hy

theorem noRoot_visit (fo : FloatOps F) {t : Test} (ht : t.notRoot = true) (cur : Item F) (cs : List (Item F)) :
    ∀ y ∈ visit fo doc t cur cs, y.isRoot = false := by
  intro y hy
  obtain ⟨z, _, hz⟩ := List.mem_flatMap.1 hy
  exact noRoot_test ht _ y hz

/-- From an item that is not the root, and along nodes that are not. -/
theorem noRoot_visit' (fo : FloatOps F) (t : Test) {cur : Item F} (hc : cur.isRoot = false) {cs : List (Item F)}
    (hcs : ∀ y ∈ cs, y.isRoot = false) : ∀ y ∈ visit fo doc t cur cs, y.isRoot = false := by
  intro y hy
  obtain ⟨z, h1, hz⟩ := List.mem_flatMap.1 hy
  rw [compute_self t _ y hz]
  unfold Item.orElse
  split
  · exact hcs z h1
  · exact hc

theorem noRoot_step (fo : FloatOps F) (hd : doc.ElemAt []) (n : Nat) {a : Axis} {t : Test} (ha : a.notRoot t = true) (x : Item F) :
    (stepRes fo doc n a t x).NoRoot := by
  have hv : t.notRoot = true → ∀ (cs : List (Item F)) (t' : Tail), Res.NoRoot ⟨visit fo doc t x cs, t'⟩ := fun h cs t' => noRoot_visit fo h x cs
  have ht : t.notRoot = true → Res.NoRoot (⟨t.compute doc x, .done⟩ : Res F) := fun h => noRoot_test h x
  have hs : ∀ {p k i}, x.siblings doc = .at p k i → x.isRoot = false := by
    intro p k i h
    cases x <;> first | rfl | cases h
  cases a
  case ancestor => cases ha
  case parent => cases ha
  case self => exact ht ha
  case «attribute» => exact noRoot_stepAttr fo n t x
  case ancestorOrSelf =>
    simp only [stepRes]
    exact noRoot_append (ht ha) (by split <;> first | exact noRoot_fail | exact hv ha _ _)
  case descendant =>
    simp only [stepRes]
    split <;> first | exact noRoot_fail | exact hv ha _ _
  case descendantOrSelf =>
    simp only [stepRes]
    exact noRoot_append (ht ha) (by split <;> first | exact noRoot_fail | exact hv ha _ _)
  case child =>
    simp only [stepRes]
    split
    · exact noRoot_fail
    · rename_i cs hcs
      cases x with
      | root =>
        have hcs : cs = [.node []] := by cases hcs; rfl
        subst hcs
        intro y hy
        obtain ⟨z, h1, hz⟩ := List.mem_flatMap.1 hy
        have hz' : z = .node [] := by
          split at h1
          · exact List.mem_singleton.1 (List.mem_filter.1 h1).1
          · exact List.mem_singleton.1 h1
        subst hz'
        rw [compute_self t _ y hz]
        unfold Item.orElse
        rw [if_pos (truthy_elem fo hd)]
        rfl
      | node p =>
        refine noRoot_visit' fo t rfl ?_
        have : ∀ y ∈ cs, y.isRoot = false := by
          intro y hy
          simp only [Item.children] at hcs
          split at hcs
          · cases hcs
            obtain ⟨i, _, rfl⟩ := List.mem_map.1 hy
            rfl
          · cases hcs; cases hy
          · cases hcs
        intro y hy
        split at hy
        · exact this y (List.mem_filter.1 hy).1
        · exact this y hy
      | attr p k v => cases hcs
      | str s => cases hcs
      | int i => cases hcs
      | float f => cases hcs
      | bool b => cases hcs
  case following =>
    simp only [stepRes]
    split
    · exact noRoot_nil
    · exact noRoot_fail
    · rename_i h
      refine noRoot_visit' fo t (hs h) ?_
      intro y hy
      obtain ⟨j, _, hj⟩ := List.mem_flatMap.1 hy
      rcases List.mem_cons.1 hj with rfl | hj
      · rfl
      · split at hj
        · obtain ⟨_, _, rfl⟩ := List.mem_map.1 hj; rfl
        · cases hj
  case followingSibling =>
    simp only [stepRes]
    split
    · exact noRoot_nil
    · exact noRoot_fail
    · rename_i h
      refine noRoot_visit' fo t (hs h) ?_
      intro y hy
      obtain ⟨j, _, rfl⟩ := List.mem_map.1 hy
      rfl
  case preceding =>
    simp only [stepRes]
    split <;> first | exact noRoot_nil | exact noRoot_fail
  case precedingSibling =>
    simp only [stepRes]
    split
    · exact noRoot_nil
    · exact noRoot_fail
    · rename_i h
      refine noRoot_visit' fo t (hs h) ?_
      intro y hy
      obtain ⟨j, _, rfl⟩ := List.mem_map.1 hy
      rfl

theorem insertKey_mem (k : Option Path) (x : Item F) : ∀ (r : List (Option Path × Item F)) y, y ∈ insertByKey k x r → y = (k, x) ∨ y ∈ r
  | [], y, h => .inl (List.mem_singleton.1 h)
  | (k', z) :: r, y, h => by
    rw [insertByKey] at h
    split at h
    · rcases List.mem_cons.1 h with h | h
      · exact .inr (by rw [h]; exact List.mem_cons_self)
      · rcases insertKey_mem k x r y h with h | h
        · exact .inl h
        · exact .inr (List.mem_cons_of_mem _ h)
    · rcases List.mem_cons.1 h with h | h
      · exact .inl h
      · exact .inr h

theorem sortKey_mem (xs : List (Option Path × Item F)) : ∀ y, y ∈ sortByKey xs → y ∈ xs := by
  have key : ∀ (xs acc : List (Option Path × Item F)) y, y ∈ xs.foldl (fun acc kx => insertByKey kx.1 kx.2 acc) acc → y ∈ acc ∨ y ∈ xs := by
    intro xs
    induction xs with
    | nil => intro acc y h; exact .inl h
    | cons x r ih =>
      intro acc y h
      rcases ih _ y h with h | h
      · rcases insertKey_mem _ _ _ y h with h | h
        · exact .inr (by rw [h]; exact List.mem_cons_self)
        · exact .inl h
      · exact .inr (List.mem_cons_of_mem _ h)
  intro y h
  rcases key xs [] y h with h | h
  · cases h
  · exact h

theorem mapM_orderKey_mem (b : Bool) : ∀ (xs : List (Item F)) ks, (xs.mapM fun y => (y.orderKey doc b).map fun k => (k, y)) = some ks →
    ∀ y ∈ ks, y.2 ∈ xs
  | [], ks, h, y, hy => by simp at h; subst h; cases hy
  | x :: r, ks, h, y, hy => by
    rw [List.mapM_cons] at h
    cases hk : x.orderKey doc b with
    | none => rw [hk] at h; simp at h
    | some k =>
      cases hr : (r.mapM fun y => (y.orderKey doc b).map fun k => (k, y)) with
      | none => rw [hk, hr] at h; simp at h
      | some kr =>
        rw [hk, hr] at h
        simp at h
        subst h
        rcases List.mem_cons.1 hy with rfl | hy
        · exact List.mem_cons_self
        · exact List.mem_cons_of_mem _ (mapM_orderKey_mem b r kr hr y hy)

theorem noRoot_union (x : Item F) {l r : Res F} (hl : l.NoRoot) (hr : r.NoRoot) : (unionRes doc x l r).NoRoot := by
  unfold unionRes
  split
  · split
    · split
      · rename_i ks hk
        intro y hy
        obtain ⟨z, hz, rfl⟩ := List.mem_map.1 hy
        have := mapM_orderKey_mem _ _ _ hk z (sortKey_mem _ _ hz)
        rcases List.mem_append.1 this with h | h
        · exact hl _ h
        · exact hr _ h
      · exact noRoot_fail
    · exact noRoot_nil
    · exact noRoot_nil
  · exact noRoot_fail

/-- What `next` gives is one of the items. -/
theorem noRoot_needOf {a : Res F} {f : Item F → Res F} (hf : ∀ y ∈ a.items, (f y).NoRoot) : (a.need f).NoRoot := by
  unfold Res.need
  cases h : a.first with
  | got x =>
    refine hf x ?_
    unfold Res.first at h
    split at h
    · rename_i h1; cases h; rw [h1]; exact List.mem_cons_self
    · cases h
    · cases h
  | empty => exact noRoot_fail
  | stop t => exact noRoot_nil

section
set_option linter.unusedSectionVars false
variable (fo : FloatOps F) (vars : Str → Option (Item F)) (n : Nat) (dyn : Str → Except XErr (Item F → Res F))
  (hd : doc.ElemAt []) (hvars : ∀ v y, vars v = some y → y.isRoot = false)
include hd hvars

mutual
  theorem noRoot_eval : ∀ (e : Expr F), e.rootless = true → ∀ x, (eval fo doc vars n dyn e x).NoRoot
    | .lit y, h, x => by
      simp only [Expr.rootless, Bool.not_eq_true'] at h
      simp only [eval]
      exact noRoot_one h
    | .neg e, h, x => by
      simp only [eval]
      split
      · exact noRoot_nil
      · exact noRoot_fail
    | .slash l r, h, x => by
      simp only [Expr.rootless] at h
      simp only [eval]
      exact noRoot_bindList (fun y => noRoot_eval r h _) _ _
    | .dslash l r, h, x => by
      have ih := noRoot_eval r
      simp only [eval]
      refine noRoot_bindList (fun y => ?_) _ _
      cases r <;> first | exact noRoot_step fo hd n (a := .descendantOrSelf) h _ | exact ih h _
    | .union l r, h, x => by
      simp only [Expr.rootless, Bool.and_eq_true] at h
      simp only [eval]
      exact noRoot_union x (noRoot_eval l h.1 x) (noRoot_eval r h.2 x)
    | .eq l r, h, x => by simp only [eval]; exact noRoot_eqRes fo _ _
    | .ne l r, h, x => by simp only [eval]; exact noRoot_need fun _ => noRoot_need fun _ => noRoot_one rfl
    | .rel op l r, h, x => by
      simp only [eval]
      refine noRoot_need fun _ => noRoot_need fun _ => ?_
      split
      · exact noRoot_one rfl
      · exact noRoot_fail
    | .or l r, h, x => by
      simp only [Expr.rootless, Bool.and_eq_true] at h
      have h1 := noRoot_eval l h.1 x
      have h2 := noRoot_eval r h.2 x
      simp only [eval]
      refine noRoot_needOf fun a ha => ?_
      split
      · exact noRoot_one (h1 a ha)
      · exact noRoot_needOf fun b hb => noRoot_one (h2 b hb)
    | .and l r, h, x => by
      simp only [Expr.rootless, Bool.and_eq_true] at h
      have h1 := noRoot_eval l h.1 x
      have h2 := noRoot_eval r h.2 x
      simp only [eval]
      refine noRoot_needOf fun a ha => ?_
      split
      · exact noRoot_needOf fun b hb => noRoot_one (h2 b hb)
      · exact noRoot_one (h1 a ha)
    | .arith _ _ _, h, x => by simp only [eval]; exact noRoot_fail
    | .abs none, h, x => by simp [Expr.rootless] at h
    | .abs (some r), h, x => by
      simp only [Expr.rootless, Bool.and_eq_true, Bool.not_eq_true'] at h
      simp only [eval, h.1]
      exact noRoot_bindList (fun y => noRoot_append noRoot_nil (noRoot_eval r h.2 _)) _ _
    | .absAll r, h, x => by
      simp only [Expr.rootless, Bool.and_eq_true, Bool.not_eq_true'] at h
      simp only [eval, h.1]
      refine noRoot_bindList (fun y => noRoot_append noRoot_nil (noRoot_append (noRoot_eval r h.2 _) ?_)) _ _
      split
      · exact noRoot_fail
      · exact noRoot_bindList (fun z => noRoot_eval r h.2 _) _ _
    | .step a t, h, x => by
      simp only [eval]
      exact noRoot_step fo hd n h x
    | .test t, h, x => by
      simp only [eval]
      exact noRoot_test h x
    | .pred l ps, h, x => by
      simp only [Expr.rootless] at h
      simp only [eval]
      exact noRoot_pred _ _ _ (noRoot_eval l h x)
    | .dot, h, _ => by simp [Expr.rootless] at h
    | .dotdot, h, _ => by simp [Expr.rootless] at h
    | .var v, _, x => by
      simp only [eval]
      split
      · rename_i h; exact noRoot_one (hvars _ _ h)
      · exact noRoot_fail
    | .call f as, h, x => by
      simp only [Expr.rootless, decide_eq_true_eq] at h
      simp only [eval]
      exact noRoot_call fo dyn x h as _
    | .seq es, h, x => by
      simp only [Expr.rootless] at h
      simp only [eval]
      exact noRoot_seq es h x
  theorem noRoot_seq : ∀ (es : List (Expr F)), Expr.rootlessAll es = true → ∀ x, (evalSeq fo doc vars n dyn es x).NoRoot
    | [], _, _ => by simp only [evalSeq]; exact noRoot_nil
    | e :: es, h, x => by
      simp only [Expr.rootlessAll, Bool.and_eq_true] at h
      simp only [evalSeq]
      exact noRoot_append (noRoot_eval e h.1 x) (noRoot_seq es h.2 x)
end
end

end Amara
