import Verif.Lemmas.XFrames
import Verif.Props.Frames
import Verif.Props.XPathMore
/-
Lemmas for C157: when there is room enough.
-/
namespace Amara

variable {F : Type}

/-! ### results without elements -/

/-- No item is an element. -/
def Res.NoElem (doc : Node) (r : Res F) : Prop := ∀ y ∈ r.items, y.isElem doc = false

variable {doc : Node}

theorem noElem_nil {t : Tail} : Res.NoElem doc (⟨[], t⟩ : Res F) := fun _ h => by cases h

theorem noElem_fail {e : XErr} : Res.NoElem doc (.fail e : Res F) := noElem_nil

theorem noElem_one {y : Item F} (h : y.isElem doc = false) : Res.NoElem doc (.one y) := fun z hz => by
  rw [show z = y from List.mem_singleton.1 hz]; exact h

theorem noElem_orDefault {a : Res F} {d : Item F} {f : Item F → Res F} (hf : ∀ y, (f y).NoElem doc) : (a.orDefault d f).NoElem doc := by
  unfold Res.orDefault
  split
  · exact hf _
  · exact hf _
  · exact noElem_nil

theorem noElem_need {a : Res F} {f : Item F → Res F} (hf : ∀ y, (f y).NoElem doc) : (a.need f).NoElem doc := by
  unfold Res.need
  split
  · exact hf _
  · exact noElem_fail
  · exact noElem_nil

theorem noElem_append {a b : Res F} (ha : a.NoElem doc) (hb : b.NoElem doc) : (a.append b).NoElem doc := by
  unfold Res.append
  split
  · intro y hy
    rcases List.mem_append.1 hy with h | h
    · exact ha y h
    · exact hb y h
  · exact ha

theorem noElem_bindList {f : Item F → Res F} (hf : ∀ y, (f y).NoElem doc) (t : Tail) : ∀ xs, (Res.bindList f t xs).NoElem doc
  | [] => noElem_nil
  | x :: r => noElem_append (hf x) (noElem_bindList hf t r)

theorem noElem_pred {f : Nat → Item F → Bool ⊕ Tail} (t : Tail) : ∀ (xs : List (Item F)) (p : Nat), (∀ y ∈ xs, y.isElem doc = false) →
    (predLoop f t p xs).NoElem doc
  | [], _, _ => noElem_nil
  | x :: r, p, h => by
    rw [predLoop]
    split
    · exact noElem_nil
    · have ih := noElem_pred (f := f) t r (p + 1) fun y hy => h y (List.mem_cons_of_mem _ hy)
      simp only []
      split
      · intro y hy
        rcases List.mem_cons.1 hy with rfl | hy
        · exact h _ List.mem_cons_self
        · exact ih y hy
      · exact ih

theorem strOf_noElem {y : Item F} {s : Str} (h : y.strOf doc = some s) : y.isElem doc = false := by
  cases y with
  | node p =>
    simp only [Item.strOf, Item.textOf] at h
    simp only [Item.isElem]
    split at h
    · rename_i h'; rw [h']
    · cases h
  | _ => rfl

theorem noElem_text {x : Item F} : ∀ y ∈ Test.compute doc .text x, y.isElem doc = false := by
  intro y hy
  simp only [Test.compute] at hy
  split at hy
  · rename_i h
    obtain ⟨s, hs⟩ := Option.isSome_iff_exists.1 h
    rw [List.mem_singleton.1 hy]
    exact strOf_noElem hs
  · cases hy

theorem noElem_visit (fo : FloatOps F) (cur : Item F) (cs : List (Item F)) : ∀ y ∈ visit fo doc .text cur cs, y.isElem doc = false := by
  intro y hy
  obtain ⟨z, _, hz⟩ := List.mem_flatMap.1 hy
  exact noElem_text y hz

theorem noElem_getRoot (x : Item F) : (x.getRoot doc).NoElem doc := by
  unfold Item.getRoot
  split
  · exact noElem_one rfl
  · split
    · exact noElem_one rfl
    · exact noElem_fail

theorem noElem_stepText (fo : FloatOps F) (n : Nat) (a : Axis) (x : Item F) : (stepRes fo doc n a .text x).NoElem doc := by
  have hv : ∀ (cs : List (Item F)) (t : Tail), Res.NoElem doc ⟨visit fo doc .text x cs, t⟩ := fun cs t => noElem_visit fo x cs
  have ht : Res.NoElem doc (⟨Test.compute doc .text x, .done⟩ : Res F) := noElem_text
  have hat : ∀ (p : Path) (as : List (Str × Str)), Res.NoElem doc (⟨as.map fun kv => Item.attr p kv.1 kv.2, .done⟩ : Res F) := by
    intro p as y hy
    obtain ⟨kv, _, rfl⟩ := List.mem_map.1 hy
    rfl
  cases a <;> simp only [stepRes]
  case self => exact ht
  case child => split <;> first | exact noElem_fail | exact hv _ _
  case «attribute» => split <;> (try split) <;> first | exact noElem_nil | exact hat _ _
  case ancestor => split <;> first | exact noElem_one rfl | exact noElem_fail | exact noElem_append (hv _ _) (noElem_getRoot _)
  case ancestorOrSelf => exact noElem_append ht (by split <;> first | exact noElem_fail | exact hv _ _)
  case descendant => split <;> first | exact noElem_fail | exact hv _ _
  case descendantOrSelf => exact noElem_append ht (by split <;> first | exact noElem_fail | exact hv _ _)
  case following => split <;> first | exact noElem_nil | exact noElem_fail | exact hv _ _
  case followingSibling => split <;> first | exact noElem_nil | exact noElem_fail | exact hv _ _
  case parent => split <;> first | exact noElem_fail | exact noElem_getRoot _ | exact hv _ _
  case preceding => split <;> first | exact noElem_nil | exact noElem_fail
  case precedingSibling => split <;> first | exact noElem_nil | exact noElem_fail | exact hv _ _

theorem noElem_stepAttr (fo : FloatOps F) (n : Nat) (t : Test) (x : Item F) : (stepRes fo doc n .attribute t x).NoElem doc := by
  have hat : ∀ (p : Path) (as : List (Str × Str)), Res.NoElem doc (⟨as.map fun kv => Item.attr p kv.1 kv.2, .done⟩ : Res F) := by
    intro p as y hy
    obtain ⟨kv, _, rfl⟩ := List.mem_map.1 hy
    rfl
  simp only [stepRes]
  split <;> (try split) <;> first | exact noElem_nil | exact hat _ _

theorem noElem_eqRes (fo : FloatOps F) (l r : Res F) : (eqRes fo doc l r).NoElem doc := by
  unfold eqRes
  split
  · split
    · exact noElem_one rfl
    · exact noElem_nil
  · split
    · exact noElem_one rfl
    · split
      · exact noElem_one rfl
      · exact noElem_nil
    · exact noElem_nil

theorem noElem_toStrItem (fo : FloatOps F) (x : Item F) : (x.toStrItem fo doc).isElem doc = false := by
  unfold Item.toStrItem
  split
  · rename_i h
    obtain ⟨s, hs⟩ := Option.isSome_iff_exists.1 h
    exact strOf_noElem hs
  · rfl

theorem noElem_toNum (fo : FloatOps F) (x : Item F) : (x.toNum fo doc).NoElem doc := by
  unfold Item.toNum
  split
  · exact noElem_one rfl
  · exact noElem_one rfl
  · exact noElem_one rfl
  · split
    · exact noElem_one rfl
    · exact noElem_fail

theorem noElem_intArg (fo : FloatOps F) (e : Expr F) {f : Int → Res F} (hf : ∀ i, (f i).NoElem doc) : (intArg fo doc e f).NoElem doc := by
  unfold intArg
  split
  · refine noElem_need fun v => ?_
    split
    · exact hf _
    · exact hf _
    · split
      · exact hf _
      · exact noElem_fail
    · exact noElem_fail
  · exact noElem_fail

theorem noElem_str2 (fo : FloatOps F) {f : Str → Str → Res F} (hf : ∀ s u, (f s u).NoElem doc) (rs : List (Res F)) :
    (fnStr2 fo doc f rs).NoElem doc := by
  unfold fnStr2
  split
  · exact noElem_orDefault fun _ => noElem_orDefault fun _ => hf _ _
  · exact noElem_fail

theorem noElem_ite {p : Prop} [Decidable p] {a b : Res F} (ha : p → a.NoElem doc) (hb : ¬ p → b.NoElem doc) :
    (if p then a else b).NoElem doc := by
  split
  · rename_i h; exact ha h
  · rename_i h; exact hb h

theorem noElem_call (fo : FloatOps F) (dyn : Str → Except XErr (Item F → Res F)) (x : Item F) {m : Str} (hm : m ≠ "for-each".toList)
    (es : List (Expr F)) (rs : List (Res F)) : (callFn fo doc dyn x m es rs).NoElem doc := by
  have hconst : ∀ y : Item F, y.isElem doc = false → (fnConst (.one y) rs).NoElem doc := by
    intro y hy
    unfold fnConst
    split
    · exact noElem_one hy
    · exact noElem_fail
  have htodo : ∀ k, (fnTodo k rs : Res F).NoElem doc := by
    intro k
    unfold fnTodo
    split <;> exact noElem_fail
  have hpart : ∀ u c : Str, Res.NoElem doc (if u = [] then Res.fail .value else .one (.str c) : Res F) := by
    intro u c
    split
    · exact noElem_fail
    · exact noElem_one rfl
  have h1 : (fnName doc x rs).NoElem doc := by
    unfold fnName
    split
    · exact noElem_one rfl
    · exact noElem_orDefault fun _ => noElem_one rfl
    · exact noElem_fail
  have h2 : (fnCount rs).NoElem doc := by
    unfold fnCount
    split
    · split
      · exact noElem_one rfl
      · exact noElem_nil
    · exact noElem_fail
  have h3 : (fnString fo doc x rs).NoElem doc := by
    unfold fnString
    split
    · exact noElem_one (noElem_toStrItem fo x)
    · exact noElem_orDefault fun y => noElem_one (noElem_toStrItem fo y)
    · exact noElem_fail
  have h4 : (concatRes fo doc rs).NoElem doc := by
    unfold concatRes
    simp only []
    split
    · exact noElem_one rfl
    · exact noElem_nil
  have h5 : (fnSubstring fo doc es rs).NoElem doc := by
    unfold fnSubstring
    split
    · split
      · exact noElem_orDefault fun _ => noElem_intArg fo _ fun _ => noElem_intArg fo _ fun _ => noElem_one rfl
      · exact noElem_fail
    · exact noElem_fail
  have h6 : (fnLength doc rs).NoElem doc := by
    unfold fnLength
    split
    · exact noElem_fail
    · refine noElem_orDefault fun y => ?_
      split
      · exact noElem_one rfl
      · exact noElem_fail
    · exact noElem_fail
  have h7 : (fnBoolean fo doc rs).NoElem doc := by
    unfold fnBoolean
    split
    · exact noElem_orDefault fun _ => noElem_one rfl
    · exact noElem_fail
  have h8 : (fnNot fo doc rs).NoElem doc := by
    unfold fnNot
    split
    · exact noElem_orDefault fun _ => noElem_one rfl
    · exact noElem_fail
  have h9 : (fnNumber fo doc rs).NoElem doc := by
    unfold fnNumber
    split
    · exact noElem_one rfl
    · exact noElem_orDefault fun _ => noElem_toNum fo _
    · exact noElem_fail
  unfold callFn
  refine noElem_ite (fun _ => h1) fun _ => ?_
  refine noElem_ite (fun _ => hconst _ rfl) fun _ => ?_
  refine noElem_ite (fun _ => h2) fun _ => ?_
  refine noElem_ite (fun _ => h3) fun _ => ?_
  refine noElem_ite (fun _ => h4) fun _ => ?_
  refine noElem_ite (fun _ => noElem_str2 fo (fun _ _ => noElem_one rfl) rs) fun _ => ?_
  refine noElem_ite (fun _ => noElem_str2 fo (fun _ _ => noElem_one rfl) rs) fun _ => ?_
  refine noElem_ite (fun _ => noElem_str2 fo (fun _ _ => hpart _ _) rs) fun _ => ?_
  refine noElem_ite (fun _ => noElem_str2 fo (fun _ _ => hpart _ _) rs) fun _ => ?_
  refine noElem_ite (fun _ => h5) fun _ => ?_
  refine noElem_ite (fun _ => h6) fun _ => ?_
  refine noElem_ite (fun _ => h7) fun _ => ?_
  refine noElem_ite (fun _ => h8) fun _ => ?_
  refine noElem_ite (fun _ => hconst _ rfl) fun _ => ?_
  refine noElem_ite (fun _ => hconst _ rfl) fun _ => ?_
  refine noElem_ite (fun _ => h9) fun _ => ?_
  refine noElem_ite (fun h => absurd h hm) fun _ => ?_
  refine noElem_ite (fun _ => noElem_str2 fo (fun _ _ => noElem_fail) rs) fun _ => ?_
  refine noElem_ite (fun _ => htodo _) fun _ => ?_
  exact noElem_ite (fun _ => htodo _) fun _ => noElem_fail

section
variable (fo : FloatOps F) (vars : Str → Option (Item F)) (n : Nat) (dyn : Str → Except XErr (Item F → Res F))

mutual
  theorem noElem_eval : ∀ (e : Expr F), e.noElements = true → ∀ x, (eval fo doc vars n dyn e x).NoElem doc
    | .lit y, h, x => by
      simp only [Expr.noElements] at h
      simp only [eval]
      cases y <;> first | exact noElem_one rfl | cases h
    | .step a t, h, x => by
      simp only [eval]
      cases a <;> cases t <;> first | exact noElem_stepAttr fo n _ x | exact noElem_stepText fo n _ x | cases h
    | .test t, h, x => by
      simp only [eval]
      cases t <;> first | exact noElem_text | cases h
    | .eq l r, h, x => by simp only [eval]; exact noElem_eqRes fo _ _
    | .ne l r, h, x => by simp only [eval]; exact noElem_need fun _ => noElem_need fun _ => noElem_one rfl
    | .rel op l r, h, x => by
      simp only [eval]
      refine noElem_need fun _ => noElem_need fun _ => ?_
      split
      · exact noElem_one rfl
      · exact noElem_fail
    | .slash l r, h, x => by
      simp only [Expr.noElements] at h
      simp only [eval]
      exact noElem_bindList (fun y => noElem_eval r h _) _ _
    | .pred l ps, h, x => by
      simp only [Expr.noElements] at h
      simp only [eval]
      exact noElem_pred _ _ _ (noElem_eval l h x)
    | .call f as, h, x => by
      simp only [Expr.noElements, decide_eq_true_eq] at h
      simp only [eval]
      exact noElem_call fo dyn x h as _
    | .seq es, h, x => by
      simp only [Expr.noElements] at h
      simp only [eval]
      exact noElem_seq es h x
    | .neg _, h, _ | .dslash _ _, h, _ | .union _ _, h, _ | .or _ _, h, _ | .and _ _, h, _ | .arith _ _ _, h, _ | .abs _, h, _
    | .absAll _, h, _ | .dot, h, _ | .dotdot, h, _ | .var _, h, _ => by simp [Expr.noElements] at h
  theorem noElem_seq : ∀ (es : List (Expr F)), Expr.noElementsAll es = true → ∀ x, (evalSeq fo doc vars n dyn es x).NoElem doc
    | [], _, _ => by simp only [evalSeq]; exact noElem_nil
    | e :: es, h, x => by
      simp only [Expr.noElementsAll, Bool.and_eq_true] at h
      simp only [evalSeq]
      exact noElem_append (noElem_eval e h.1 x) (noElem_seq es h.2 x)
end
end

/-! ### room -/

/-- String values of elements and the numbering for a union get by with `v` calls. -/
def ValuesFit (F : Type) (doc : Node) (c : QNeeds) (v : Nat) : Prop :=
  ∀ k, v ≤ k → ∀ x : Item F, (x.isElem doc = true → x.strvalFits doc c.toNeeds k = true ∧ x.valueFits doc k = true) ∧ numberFits doc k x = true

theorem heights_mem : ∀ {cs : List Node} {z : Node}, z ∈ cs → z.height ≤ Node.heights cs
  | x :: r, z, h => by
    rw [Node.heights]
    rcases List.mem_cons.1 h with rfl | h
    · omega
    · have := heights_mem h; omega

theorem height_at : ∀ (p : Path) {doc z : Node}, doc.at? p = some z → z.height ≤ doc.height
  | [], doc, z, h => by cases doc <;> cases h <;> exact Nat.le_refl _
  | i :: p, .text _, z, h => by cases h
  | i :: p, .elem m as cs, z, h => by
    rw [Node.at?] at h
    simp only [Node.xmlChildren] at h
    cases hi : cs[i]? with
    | none => rw [hi] at h; cases h
    | some y =>
      rw [hi] at h
      have h1 := height_at p h
      have h2 := heights_mem (List.mem_of_getElem? hi)
      rw [Node.height]
      omega

theorem valuesFit (F : Type) {doc : Node} {c : QNeeds} {m v : Nat} (hc : c.toNeeds.Within m) (hv : 2 * doc.height + m + 2 ≤ v) :
    ValuesFit F doc c v := by
  intro k hk x
  constructor
  · intro hx
    cases x with
    | node p =>
      simp only [Item.isElem] at hx
      split at hx
      · rename_i h
        have hh := height_at p h
        simp only [Item.strvalFits, Item.valueFits, h]
        exact ⟨(strvalK_some c.toNeeds m hc).1 _ k (by simp [Node.isText]; omega), xmlValueK_some.1 _ k (by omega)⟩
      · cases hx
    | _ => cases hx
  · obtain ⟨k, rfl⟩ : ∃ k', k = k' + 1 := ⟨k - 1, by omega⟩
    simp only [numberFits, Bool.not_eq_true']
    have : ∀ d : Node, d.height ≤ doc.height + 1 → (d.descendantsK [] k).2 = false := by
      intro d hd
      cases hb : (d.descendantsK [] k).2 with
      | false => rfl
      | true => have := (descendantsK_ends.1 d [] k (by omega)).1 hb; omega
    split
    · exact this _ (by simp only [Node.height, Node.heights]; omega)
    · exact this _ (by omega)

theorem strvalFits_noElem {c : Needs} {k : Nat} (hk : 0 < k) {x : Item F} (hx : x.isElem doc = false) (ht : (x.strOf doc).isSome = false) :
    x.strvalFits doc c k = true := by
  cases x with
  | node p =>
    simp only [Item.strvalFits]
    simp only [Item.isElem] at hx
    simp only [Item.strOf, Item.textOf] at ht
    split
    · rename_i z hz
      rw [hz] at hx ht
      cases z
      · cases hx
      · cases ht
    · rfl
  | root => simpa [Item.strvalFits] using hk
  | attr _ _ _ => simpa [Item.strvalFits] using hk
  | _ => rfl

theorem convFits_of {c : QNeeds} {k v : Nat} {f : Str} (hk : c.conv f + max 1 v ≤ k) {x : Item F}
    (hx : ValuesFit F doc c v ∨ x.isElem doc = false) : x.convFits doc c k f = true := by
  unfold Item.convFits
  simp only [Bool.and_eq_true, decide_eq_true_eq, Bool.or_eq_true]
  refine ⟨by omega, ?_⟩
  cases ht : (x.strOf doc).isSome with
  | true => exact .inl rfl
  | false =>
    right
    cases he : x.isElem doc with
    | false => exact strvalFits_noElem (by omega) he ht
    | true =>
      rcases hx with h | h
      · exact ((h (k - c.conv f) (by omega) x).1 he).1
      · rw [he] at h; cases h

theorem convFirst_of {c : QNeeds} {k v : Nat} {f : Str} (hk : c.conv f + max 1 v ≤ k) {a : Res F}
    (ha : ValuesFit F doc c v ∨ a.NoElem doc) : a.convFirst doc c k f = a := by
  unfold Res.convFirst
  split
  · rw [if_neg (by omega)]
  · rename_i x r hx
    rw [if_pos (convFits_of hk (ha.imp id fun h => h x (by rw [hx]; exact List.mem_cons_self)))]

theorem convAll_of {c : QNeeds} {k v : Nat} {f : Str} (hk : c.conv f + max 1 v ≤ k) {a : Res F}
    (ha : ValuesFit F doc c v ∨ a.NoElem doc) : a.convAll doc c k f = a := by
  have : ∀ (t : Tail) (xs : List (Item F)), (ValuesFit F doc c v ∨ ∀ y ∈ xs, y.isElem doc = false) → convItems doc c k f t xs = ⟨xs, t⟩ := by
    intro t xs h
    induction xs with
    | nil => rfl
    | cons x r ih =>
      rw [convItems, if_pos (convFits_of hk (h.imp id fun h => h x List.mem_cons_self)),
        ih (h.imp id fun h y hy => h y (List.mem_cons_of_mem _ hy))]
  exact this _ _ ha

theorem map_same {α : Type} {g : α → α} : ∀ {l : List α}, (∀ a ∈ l, g a = a) → l.map g = l
  | [], _ => rfl
  | a :: l, h => by
    rw [List.map_cons, h a List.mem_cons_self, map_same fun b hb => h b (List.mem_cons_of_mem _ hb)]

theorem convArgs_of {c : QNeeds} {k v : Nat} {f : Str} (hf : f ≠ "for-each".toList) (hk : converts f = true → c.conv f + max 1 v ≤ k)
    {rs : List (Res F)} (ha : converts f = true → ValuesFit F doc c v ∨ ∀ r ∈ rs, r.NoElem doc) : convArgs doc c k f rs = rs := by
  unfold convArgs
  split
  · rename_i h
    have hc : converts f = true := by simp [converts, h]
    exact map_same fun a hm => convAll_of (hk hc) ((ha hc).imp id fun h => h a hm)
  · try rw [if_neg hf]
    split
    · rename_i h
      have hc : converts f = true := by simp [converts, h]
      exact map_same fun a hm => convFirst_of (hk hc) ((ha hc).imp id fun h => h a hm)
    · rfl

theorem callK_of {k : Nat} {body : Nat → Res F} (h : 1 ≤ k) : callK k body = body (k - 1) := by
  cases k with
  | zero => omega
  | succ k => rfl

theorem calls_pos (c : QNeeds) (v : Nat) (e : Expr F) : 1 ≤ e.calls c v := by
  cases e
  case abs r => cases r <;> simp only [Expr.calls] <;> omega
  all_goals simp only [Expr.calls]
  all_goals omega

theorem valueFits_noElem {k : Nat} (hk : 1 ≤ k) {x : Item F} (hx : x.isElem doc = false) : x.valueFits doc k = true := by
  cases x with
  | node p =>
    simp only [Item.valueFits]
    simp only [Item.isElem] at hx
    split
    · rename_i z hz
      rw [hz] at hx
      cases z
      · cases hx
      · cases k
        · omega
        · rfl
    · rfl
  | _ => rfl

section
set_option linter.unusedSectionVars false
variable (fo : FloatOps F) (c : QNeeds) (v : Nat) (vars : Str → Option (Item F)) (n : Nat)
  (dyn : Str → Except XErr (Nat → Item F → Res F)) (dyn₀ : Str → Except XErr (Item F → Res F))

theorem noElem_args : ∀ (es : List (Expr F)), Expr.noElementsAll es = true → ∀ x, ∀ r ∈ evalArgs fo doc vars n dyn₀ es x, r.NoElem doc
  | [], _, x, r, hr => by simp only [evalArgs] at hr; cases hr
  | e :: es, h, x, r, hr => by
    simp only [Expr.noElementsAll, Bool.and_eq_true] at h
    simp only [evalArgs] at hr
    rcases List.mem_cons.1 hr with rfl | hr
    · exact noElem_eval fo vars n dyn₀ e h.1 x
    · exact noElem_args es h.2 x r hr

theorem stepK_of {k : Nat} {a : Axis} {t : Test} (hk : 1 + c.step a t ≤ k) (x : Item F) :
    stepResK fo doc c n k a t x = stepRes fo doc n a t x := by
  unfold stepResK
  rw [callK_of (by omega), if_neg (by omega)]

mutual
  theorem room_eval : ∀ (e : Expr F), e.noForEach = true → (e.asksDepth = true → ValuesFit F doc c v) → ∀ (k : Nat), e.calls c v ≤ k →
      ∀ x, evalK fo doc c vars n dyn e k x = eval fo doc vars n dyn₀ e x
    | .lit y, hf, ha, k, hk, x => by
      simp only [Expr.calls] at hk
      simp only [evalK, eval]; rw [callK_of (by omega)]
    | .neg e, hf, ha, k, hk, x => by
      simp only [Expr.noForEach] at hf; simp only [Expr.asksDepth] at ha; simp only [Expr.calls] at hk
      simp only [evalK, eval]; rw [callK_of (by omega), room_eval e hf ha (k - 1) (by omega) x]
      rfl
    | .slash l r, hf, ha, k, hk, x => by
      simp only [Expr.noForEach, Bool.and_eq_true] at hf; simp only [Expr.asksDepth, Bool.or_eq_true] at ha; simp only [Expr.calls] at hk
      simp only [evalK, eval]; rw [callK_of (by omega), room_eval l hf.1 (fun h => ha (.inl h)) (k - 1) (by omega) x]
      congr 1
      funext y
      rw [if_neg (by omega), room_eval r hf.2 (fun h => ha (.inr h)) (k - 1) (by omega)]
    | .dslash l r, hf, ha, k, hk, x => by
      simp only [Expr.noForEach, Bool.and_eq_true] at hf; simp only [Expr.asksDepth, Bool.or_eq_true] at ha; simp only [Expr.calls] at hk
      have ihr := room_eval r hf.2 (fun h => ha (.inr h)) (k - 1) (by omega)
      simp only [evalK, eval]; rw [callK_of (by omega), room_eval l hf.1 (fun h => ha (.inl h)) (k - 1) (by omega) x]
      congr 1
      funext y
      rw [if_neg (by omega)]
      cases r <;> first | exact ihr _ | skip
      rename_i a t
      simp only [Expr.callsDown] at hk
      exact stepK_of fo c n (by omega) _
    | .union l r, hf, ha, k, hk, x => by
      simp only [Expr.noForEach, Bool.and_eq_true] at hf; simp only [Expr.asksDepth, forall_const] at ha; simp only [Expr.calls] at hk
      simp only [evalK, eval]
      rw [callK_of (by omega), room_eval l hf.1 (fun _ => ha) (k - 1) (by omega) x, room_eval r hf.2 (fun _ => ha) (k - 1) (by omega) x]
      unfold unionResK
      rw [(ha (k - 1) (by omega) x).2]
      simp
    | .eq l r, hf, ha, k, hk, x => by
      simp only [Expr.noForEach, Bool.and_eq_true] at hf; simp only [Expr.asksDepth, Bool.or_eq_true] at ha; simp only [Expr.calls] at hk
      simp only [evalK, eval]
      rw [callK_of (by omega), room_eval l hf.1 (fun h => ha (.inl (.inl h))) (k - 1) (by omega) x,
        room_eval r hf.2 (fun h => ha (.inl (.inr h))) (k - 1) (by omega) x]
      have hp := calls_pos c v l
      unfold eqResK
      split
      · rename_i i _ _ _ hi _
        rw [if_pos]
        cases he : i.isElem doc with
        | false => exact valueFits_noElem (by omega) he
        | true =>
          cases hl : l.noElements with
          | false => exact (((ha (.inr (by rw [hl]; rfl))) (k - 1) (by omega) i).1 he).2
          | true =>
            have := noElem_eval fo vars n dyn₀ l hl x i (by rw [hi]; exact List.mem_cons_self)
            rw [he] at this; cases this
      · rfl
    | .ne l r, hf, ha, k, hk, x => by
      simp only [Expr.noForEach, Bool.and_eq_true] at hf; simp only [Expr.asksDepth, Bool.or_eq_true] at ha; simp only [Expr.calls] at hk
      simp only [evalK, eval]
      rw [callK_of (by omega), room_eval l hf.1 (fun h => ha (.inl h)) (k - 1) (by omega) x,
        room_eval r hf.2 (fun h => ha (.inr h)) (k - 1) (by omega) x]
    | .rel op l r, hf, ha, k, hk, x => by
      simp only [Expr.noForEach, Bool.and_eq_true] at hf; simp only [Expr.asksDepth, Bool.or_eq_true] at ha; simp only [Expr.calls] at hk
      simp only [evalK, eval]
      rw [callK_of (by omega), room_eval l hf.1 (fun h => ha (.inl h)) (k - 1) (by omega) x,
        room_eval r hf.2 (fun h => ha (.inr h)) (k - 1) (by omega) x]
      rfl
    | .or l r, hf, ha, k, hk, x => by
      simp only [Expr.noForEach, Bool.and_eq_true] at hf; simp only [Expr.asksDepth, Bool.or_eq_true] at ha; simp only [Expr.calls] at hk
      simp only [evalK, eval]
      rw [callK_of (by omega), room_eval l hf.1 (fun h => ha (.inl h)) (k - 1) (by omega) x,
        room_eval r hf.2 (fun h => ha (.inr h)) (k - 1) (by omega) x]
    | .and l r, hf, ha, k, hk, x => by
      simp only [Expr.noForEach, Bool.and_eq_true] at hf; simp only [Expr.asksDepth, Bool.or_eq_true] at ha; simp only [Expr.calls] at hk
      simp only [evalK, eval]
      rw [callK_of (by omega), room_eval l hf.1 (fun h => ha (.inl h)) (k - 1) (by omega) x,
        room_eval r hf.2 (fun h => ha (.inr h)) (k - 1) (by omega) x]
    | .arith _ _ _, hf, ha, k, hk, x => by
      simp only [Expr.calls] at hk
      simp only [evalK, eval]; rw [callK_of (by omega)]
    | .abs none, hf, ha, k, hk, x => by
      simp only [Expr.calls] at hk
      simp only [evalK, eval]; rw [callK_of (by omega), if_neg (by omega)]
    | .abs (some r), hf, ha, k, hk, x => by
      simp only [Expr.noForEach] at hf; simp only [Expr.asksDepth] at ha; simp only [Expr.calls] at hk
      have ih := room_eval r hf ha (k - 1) (by omega)
      simp only [evalK, eval]; rw [callK_of (by omega), if_neg (by omega)]
      congr 1
      funext y
      rw [if_neg (show ¬ k - 1 < c.copy by omega), ih]
    | .absAll r, hf, ha, k, hk, x => by
      simp only [Expr.noForEach] at hf; simp only [Expr.asksDepth] at ha; simp only [Expr.calls] at hk
      have ih := room_eval r hf ha (k - 1) (by omega)
      simp only [evalK, eval]; rw [callK_of (by omega), if_neg (by omega)]
      congr 1
      funext y
      rw [if_neg (show ¬ k - 1 < c.copy by omega), ih]
      simp only [ih]
      rfl
    | .step a t, hf, ha, k, hk, x => by
      simp only [Expr.calls] at hk
      simp only [evalK, eval]
      exact stepK_of fo c n hk x
    | .test t, hf, ha, k, hk, x => by
      simp only [Expr.calls] at hk
      simp only [evalK, eval]; rw [callK_of (by omega)]
    | .pred l ps, hf, ha, k, hk, x => by
      simp only [Expr.noForEach, Bool.and_eq_true] at hf; simp only [Expr.asksDepth, Bool.or_eq_true] at ha; simp only [Expr.calls] at hk
      have ih := fun pos => room_preds pos ps hf.2 (fun h => ha (.inr h)) (k - 1) (by omega)
      simp only [evalK, eval]; rw [callK_of (by omega), room_eval l hf.1 (fun h => ha (.inl h)) (k - 1) (by omega) x]
      congr 1
      funext pos y
      rw [if_neg (by omega), ih]
    | .dot, hf, ha, k, hk, x => by
      simp only [Expr.calls] at hk
      simp only [evalK, eval]; rw [callK_of (by omega)]
    | .dotdot, hf, ha, k, hk, x => by
      simp only [Expr.calls] at hk
      simp only [evalK, eval]; rw [callK_of (by omega), if_neg (by omega)]
      rfl
    | .var w, hf, ha, k, hk, x => by
      simp only [Expr.calls] at hk
      simp only [evalK, eval]; rw [callK_of (by omega)]
      rfl
    | .call f as, hf, ha, k, hk, x => by
      simp only [Expr.noForEach, Bool.and_eq_true, decide_eq_true_eq] at hf
      simp only [Expr.asksDepth, Bool.or_eq_true, Bool.and_eq_true] at ha
      simp only [Expr.calls] at hk
      have ih := room_args f as 0 hf.2 (fun h => ha (.inl h)) (k - 1) (by omega) x
      simp only [evalK, eval]
      rw [callK_of (by omega), ih]
      unfold callFnK
      have hcv : converts f = true → c.conv f + max 1 v ≤ k - 1 := by
        intro h
        rw [if_pos h] at hk
        omega
      rw [if_neg (by omega), if_neg, convArgs_of hf.1 hcv, callFn_dyn fo doc _ _ x f as _ hf.1]
      · intro h
        cases hn : Expr.noElementsAll as with
        | false => exact .inl (ha (.inr ⟨h, .inl (by rw [hn]; rfl)⟩))
        | true => exact .inr (noElem_args fo vars n dyn₀ as hn x)
      · rintro ⟨h1, h2, h3⟩
        have hc : converts f = true := by rw [h1]; decide
        have he : as.isEmpty = true := by
          cases as with
          | nil => rfl
          | cons _ _ => simp only [evalArgs] at h2; cases h2
        rw [convFits_of (hcv hc) (.inl (ha (.inr ⟨hc, .inr he⟩)))] at h3
        cases h3
    | .seq es, hf, ha, k, hk, x => by
      simp only [Expr.noForEach] at hf; simp only [Expr.asksDepth] at ha; simp only [Expr.calls] at hk
      simp only [evalK, eval]; rw [callK_of (by omega), room_seq es hf ha (k - 1) (by omega) x]
  theorem room_preds (pos : Nat) : ∀ (ps : List (Expr F)), Expr.noForEachAll ps = true → (Expr.asksDepthAll ps = true → ValuesFit F doc c v) →
      ∀ (k : Nat), Expr.callsAll c v ps ≤ k → ∀ x, evalPredsK fo doc c vars n dyn pos ps k x = evalPreds fo doc vars n dyn₀ pos ps x
    | [], _, _, k, _, x => by simp only [evalPredsK, evalPreds]
    | p :: r, hf, ha, k, hk, x => by
      simp only [Expr.noForEachAll, Bool.and_eq_true] at hf; simp only [Expr.asksDepthAll, Bool.or_eq_true] at ha; simp only [Expr.callsAll] at hk
      have ih := room_preds pos r hf.2 (fun h => ha (.inr h)) k (by omega) x
      simp only [evalPredsK, evalPreds]
      rw [room_eval p hf.1 (fun h => ha (.inl h)) k (by omega) x, ih]
      rfl
  theorem room_args (f : Str) : ∀ (es : List (Expr F)) (i : Nat), Expr.noForEachAll es = true →
      (Expr.asksDepthAll es = true → ValuesFit F doc c v) → ∀ (k : Nat), Expr.callsArgs c v f i es ≤ k →
      ∀ x, evalArgsK fo doc c vars n dyn f i es k x = evalArgs fo doc vars n dyn₀ es x
    | [], i, _, _, k, _, x => by simp only [evalArgsK, evalArgs]
    | p :: r, i, hf, ha, k, hk, x => by
      simp only [Expr.noForEachAll, Bool.and_eq_true] at hf; simp only [Expr.asksDepthAll, Bool.or_eq_true] at ha; simp only [Expr.callsArgs] at hk
      simp only [evalArgsK, evalArgs]
      rw [room_eval p hf.1 (fun h => ha (.inl h)) (k - c.arg f i) (by omega) x, room_args f r (i + 1) hf.2 (fun h => ha (.inr h)) k (by omega) x]
  theorem room_seq : ∀ (es : List (Expr F)), Expr.noForEachAll es = true → (Expr.asksDepthAll es = true → ValuesFit F doc c v) →
      ∀ (k : Nat), Expr.callsAll c v es ≤ k → ∀ x, evalSeqK fo doc c vars n dyn es k x = evalSeq fo doc vars n dyn₀ es x
    | [], _, _, k, _, x => by simp only [evalSeqK, evalSeq]
    | p :: r, hf, ha, k, hk, x => by
      simp only [Expr.noForEachAll, Bool.and_eq_true] at hf; simp only [Expr.asksDepthAll, Bool.or_eq_true] at ha; simp only [Expr.callsAll] at hk
      simp only [evalSeqK, evalSeq]
      rw [room_eval p hf.1 (fun h => ha (.inl h)) k (by omega) x, room_seq r hf.2 (fun h => ha (.inr h)) k (by omega) x]
end

end

end Amara
