import Verif.Lemmas.XMarksRoot
/-
Lemmas for C158: evaluation with a memory agrees with evaluation without one.
-/
namespace Amara

variable {F : Type}

/-- Each element has a number, and they ascend in document order. -/
def Marks.Numbered (doc : Node) (m : Marks) : Prop :=
  (∀ p, (∃ k, m.elem p = some k) ↔ doc.ElemAt p) ∧ ∀ p q j k, m.elem p = some j → m.elem q = some k → docLt p q → j < k

/-- What is known of the order numbers. -/
def MarksInv (doc : Node) : Bool → Marks → Prop
  | true, m => m.Numbered doc
  | false, m => m.Ordered doc

theorem marksInv_le (doc : Node) : ∀ m, MarksInv doc true m → MarksInv doc false m := fun _ h => .inr h

/-! ### numbering -/

theorem putAll_root (ps : List Path) : ∀ (m : Marks) (k : Nat), (m.putAll k ps).root = m.root := by
  induction ps with
  | nil => intro m k; rfl
  | cons p r ih => intro m k; exact ih _ _

theorem putAll_other (ps : List Path) : ∀ (m : Marks) (k : Nat) (q : Path), q ∉ ps → (m.putAll k ps).elem q = m.elem q := by
  induction ps with
  | nil => intro m k q _; rfl
  | cons p r ih =>
    intro m k q hq
    rw [Marks.putAll, ih _ _ q fun h => hq (List.mem_cons_of_mem _ h)]
    exact if_neg fun h => hq (by rw [h]; exact List.mem_cons_self)

/-- The numbers of a list without repetition ascend. -/
theorem putAll_ascend (ps : List Path) : ∀ (m : Marks) (k : Nat), ps.Nodup →
    (∀ q ∈ ps, ∃ j, (m.putAll k ps).elem q = some j ∧ k < j) ∧
    ps.Pairwise fun p q => ∀ i j, (m.putAll k ps).elem p = some i → (m.putAll k ps).elem q = some j → i < j := by
  induction ps with
  | nil => intro m k _; exact ⟨(fun _ h => by cases h), .nil⟩
  | cons p r ih =>
    intro m k hn
    obtain ⟨h1, h2⟩ := ih (m.put p (k + 1)) (k + 1) (List.nodup_cons.1 hn).2
    have hp : (m.putAll k (p :: r)).elem p = some (k + 1) := by
      rw [Marks.putAll, putAll_other r _ _ p (List.nodup_cons.1 hn).1]
      exact if_pos rfl
    refine ⟨?_, List.pairwise_cons.2 ⟨?_, h2⟩⟩
    · intro q hq
      rcases List.mem_cons.1 hq with rfl | hq
      · exact ⟨k + 1, hp, by omega⟩
      · obtain ⟨j, h3, h4⟩ := h1 q hq
        exact ⟨j, h3, by omega⟩
    · intro q hq i j hi hj
      rw [hp] at hi
      cases hi
      obtain ⟨j', h3, h4⟩ := h1 q hq
      rw [show (m.putAll k (p :: r)).elem q = some j' from h3] at hj
      cases hj
      omega

/-- The elements of a document, in document order. -/
theorem elements_spec {doc : Node} (hd : doc.ElemAt []) :
    let ps := [] :: (doc.descendants []).map (·.1)
    (∀ p, p ∈ ps ↔ doc.ElemAt p) ∧ ps.Pairwise docLt := by
  obtain ⟨h1, h2, _⟩ := C37_descendants doc
  have hmem : ∀ p, p ∈ (doc.descendants []).map (·.1) ↔ p ≠ [] ∧ doc.ElemAt p := by
    intro p
    constructor
    · intro h
      obtain ⟨⟨q, x⟩, h3, rfl⟩ := List.mem_map.1 h
      obtain ⟨h4, h5, h6⟩ := (h1 q x).1 h3
      refine ⟨h4, ?_⟩
      cases x with
      | elem n as cs => exact ⟨n, as, cs, h5⟩
      | text s => cases h6
    · rintro ⟨h3, n, as, cs, h4⟩
      exact List.mem_map.2 ⟨(p, .elem n as cs), (h1 _ _).2 ⟨h3, h4, rfl⟩, rfl⟩
  refine ⟨fun p => ?_, List.pairwise_cons.2 ⟨?_, ?_⟩⟩
  · rw [List.mem_cons, hmem]
    constructor
    · rintro (rfl | h)
      · exact hd
      · exact h.2
    · intro h
      by_cases hp : p = []
      · exact .inl hp
      · exact .inr ⟨hp, h⟩
  · intro q hq
    have := ((hmem q).1 hq).1
    cases q with
    | nil => exact absurd rfl this
    | cons i q => exact trivial
  · rw [List.pairwise_map]; exact h2

theorem numbered_of {doc : Node} (hd : doc.ElemAt []) {m : Marks}
    (hout : ∀ p, ¬ doc.ElemAt p → m.elem p = none)
    (h1 : ∀ q ∈ [] :: (doc.descendants []).map (·.1), ∃ j, m.elem q = some j)
    (h2 : ([] :: (doc.descendants []).map (·.1)).Pairwise fun p q => ∀ i j, m.elem p = some i → m.elem q = some j → i < j) :
    m.Numbered doc := by
  obtain ⟨e1, e2⟩ := elements_spec hd
  refine ⟨fun p => ⟨fun ⟨k, hk⟩ => ?_, fun h => h1 p ((e1 p).2 h)⟩, ?_⟩
  · by_cases h : doc.ElemAt p
    · exact h
    · rw [hout p h] at hk; cases hk
  · intro p q j k hj hk hpq
    have hp : p ∈ [] :: (doc.descendants []).map (·.1) := by
      by_cases h : doc.ElemAt p
      · exact (e1 p).2 h
      · rw [hout p h] at hj; cases hj
    have hq : q ∈ [] :: (doc.descendants []).map (·.1) := by
      by_cases h : doc.ElemAt q
      · exact (e1 q).2 h
      · rw [hout q h] at hk; cases hk
    generalize [] :: (doc.descendants []).map (·.1) = ps at hp hq h2 e2
    induction ps with
    | nil => cases hp
    | cons a r ih =>
      rw [List.pairwise_cons] at h2 e2
      rcases List.mem_cons.1 hp with rfl | hp
      · rcases List.mem_cons.1 hq with rfl | hq
        · exact absurd hpq (docLt_irrefl _)
        · exact h2.1 q hq j k hj hk
      · rcases List.mem_cons.1 hq with rfl | hq'
        · exact absurd (docLt_trans hpq (e2.1 p (by assumption))) (docLt_irrefl _)
        · exact ih (by assumption) hq' h2.2 e2.2

theorem index_numbered {doc : Node} (hd : doc.ElemAt []) {m : Marks} (hm : m.Ordered doc) (x : Item F) :
    (indexMarks doc m x).Numbered doc := by
  obtain ⟨e1, e2⟩ := elements_spec hd
  have hnd : ([] :: (doc.descendants []).map (·.1)).Nodup := nodup_of_docLt e2
  have hout : ∀ p, ¬ doc.ElemAt p → m.elem p = none := by
    intro p hp
    rcases hm with ⟨_, h⟩ | ⟨h, _⟩
    · exact h p
    · cases h' : m.elem p with
      | none => rfl
      | some k => exact absurd ((h p).1 ⟨k, h'⟩) hp
  have hroot : (Marks.putAll ⟨some 0, m.elem⟩ 0 ([] :: (doc.descendants []).map (·.1))).Numbered doc := by
    obtain ⟨h1, h2⟩ := putAll_ascend _ ⟨some 0, m.elem⟩ 0 hnd
    refine numbered_of hd ?_ (fun q hq => ?_) h2
    · intro p hp
      rw [putAll_other _ _ _ p fun h => hp ((e1 p).1 h)]
      exact hout p hp
    · obtain ⟨j, h3, _⟩ := h1 q hq
      exact ⟨j, h3⟩
  have htop : ((m.put [] 0).putAll 0 ((doc.descendants []).map (·.1))).Numbered doc := by
    obtain ⟨h1, h2⟩ := putAll_ascend _ (m.put [] 0) 0 (List.nodup_cons.1 hnd).2
    have h0 : ((m.put [] 0).putAll 0 ((doc.descendants []).map (·.1))).elem [] = some 0 := by
      rw [putAll_other _ _ _ [] (List.nodup_cons.1 hnd).1]
      rfl
    refine numbered_of hd ?_ (fun q hq => ?_) (List.pairwise_cons.2 ⟨?_, h2⟩)
    · intro p hp
      rw [putAll_other _ _ _ p fun h => hp ((e1 p).1 (List.mem_cons_of_mem _ h))]
      refine (if_neg ?_).trans (hout p hp)
      rintro rfl
      exact hp hd
    · rcases List.mem_cons.1 hq with rfl | hq
      · exact ⟨0, h0⟩
      · obtain ⟨j, h3, _⟩ := h1 q hq
        exact ⟨j, h3⟩
    · intro q hq i j hi hj
      rw [h0] at hi
      cases hi
      obtain ⟨j', h3, h4⟩ := h1 q hq
      rw [h3] at hj
      cases hj
      exact h4
  cases x with
  | root => exact hroot
  | _ => exact htop

/-! ### sorting -/

theorem insert_agrees {doc : Node} {m : Marks} (hm : m.Numbered doc) {p : Path} {k : Nat} (hk : m.elem p = some k) (x : Item F) :
    ∀ (l : List (Nat × Item F)) (l' : List (Option Path × Item F)),
      All2 (fun a b => a.2 = b.2 ∧ ∃ q, b.1 = some q ∧ m.elem q = some a.1) l l' →
      All2 (fun a b => a.2 = b.2 ∧ ∃ q, b.1 = some q ∧ m.elem q = some a.1) (insertNum k x l) (insertByKey (some p) x l') := by
  intro l l' h
  induction h with
  | nil => exact .cons ⟨rfl, p, rfl, hk⟩ .nil
  | @cons a b l l' hab hr ih =>
    obtain ⟨i, y⟩ := a
    obtain ⟨o, z⟩ := b
    obtain ⟨h1, q, h2, h3⟩ := hab
    simp only at h1 h2 h3
    subst h1 h2
    rw [insertNum, insertByKey]
    have hiff : keyLe (some q) (some p) = true ↔ i ≤ k := by
      simp only [keyLe, Bool.not_eq_true']
      constructor
      · intro hb
        rcases Nat.lt_or_ge k i with hlt | hge
        · exfalso
          rcases docLt_total p q with h | h | h
          · rw [(docLtB_iff p q).2 h] at hb; cases hb
          · rw [h, h3] at hk; cases hk; omega
          · have := hm.2 q p i k h3 hk h; omega
        · exact hge
      · intro hle
        cases hb : docLtB p q with
        | false => rfl
        | true =>
          have := hm.2 p q k i hk h3 ((docLtB_iff p q).1 hb)
          omega
    by_cases hle : i ≤ k
    · rw [if_pos hle, if_pos (hiff.2 hle)]
      exact .cons ⟨rfl, q, rfl, h3⟩ ih
    · rw [if_neg hle, if_neg fun h => hle (hiff.1 h)]
      exact .cons ⟨rfl, p, rfl, hk⟩ (.cons ⟨rfl, q, rfl, h3⟩ hr)

/-- The number of an item that is not the root, and its place. -/
theorem mark_key {doc : Node} {m : Marks} (hm : m.Numbered doc) (b : Bool) (y : Item F) (hy : y.isRoot = false) :
    (m.of y = none ∧ y.orderKey doc b = none) ∨ ∃ p k, m.of y = some k ∧ y.orderKey doc b = some (some p) ∧ m.elem p = some k := by
  cases y with
  | root => cases hy
  | node p =>
    by_cases h : doc.ElemAt p
    · obtain ⟨k, hk⟩ := (hm.1 p).2 h
      obtain ⟨n, as, cs, h'⟩ := h
      exact .inr ⟨p, k, hk, by simp only [Item.orderKey, h'], hk⟩
    · refine .inl ⟨?_, ?_⟩
      · show m.elem p = none
        cases h' : m.elem p with
        | none => rfl
        | some k => exact absurd ((hm.1 p).1 ⟨k, h'⟩) h
      · simp only [Item.orderKey]
        split
        · rename_i h'; exact absurd ⟨_, _, _, h'⟩ h
        · rfl
  | _ => exact .inl ⟨rfl, rfl⟩

theorem mapM_agrees {doc : Node} {m : Marks} (hm : m.Numbered doc) (b : Bool) : ∀ xs : List (Item F), (∀ y ∈ xs, y.isRoot = false) →
    ((xs.mapM fun x => (m.of x).map fun k => (k, x)) = none ∧ (xs.mapM fun y => (y.orderKey doc b).map fun k => (k, y)) = none) ∨
    ∃ ks ks', (xs.mapM fun x => (m.of x).map fun k => (k, x)) = some ks ∧
      (xs.mapM fun y => (y.orderKey doc b).map fun k => (k, y)) = some ks' ∧
      All2 (fun a b => a.2 = b.2 ∧ ∃ q, b.1 = some q ∧ m.elem q = some a.1) ks ks'
  | [], _ => .inr ⟨[], [], rfl, rfl, .nil⟩
  | x :: r, h => by
    have ih := mapM_agrees hm b r fun y hy => h y (List.mem_cons_of_mem _ hy)
    rw [List.mapM_cons, List.mapM_cons]
    rcases mark_key hm b x (h x List.mem_cons_self) with ⟨h1, h2⟩ | ⟨p, k, h1, h2, h3⟩
    · rw [h1, h2]; exact .inl ⟨rfl, rfl⟩
    · rw [h1, h2]
      rcases ih with ⟨i1, i2⟩ | ⟨ks, ks', i1, i2, i3⟩
      · rw [i1, i2]; exact .inl ⟨rfl, rfl⟩
      · rw [i1, i2]
        exact .inr ⟨(k, x) :: ks, (some p, x) :: ks', rfl, rfl, .cons ⟨rfl, p, rfl, h3⟩ i3⟩

theorem sort_agrees {doc : Node} {m : Marks} (hm : m.Numbered doc) : ∀ (ks : List (Nat × Item F)) (ks' : List (Option Path × Item F)),
    All2 (fun a b => a.2 = b.2 ∧ ∃ q, b.1 = some q ∧ m.elem q = some a.1) ks ks' →
    (ks.foldl (fun acc kx => insertNum kx.1 kx.2 acc) []).map Prod.snd = (sortByKey ks').map (·.2) := by
  have key : ∀ (ks : List (Nat × Item F)) (ks' : List (Option Path × Item F)),
      All2 (fun a b => a.2 = b.2 ∧ ∃ q, b.1 = some q ∧ m.elem q = some a.1) ks ks' → ∀ acc acc',
      All2 (fun a b => a.2 = b.2 ∧ ∃ q, b.1 = some q ∧ m.elem q = some a.1) acc acc' →
      All2 (fun a b => a.2 = b.2 ∧ ∃ q, b.1 = some q ∧ m.elem q = some a.1) (ks.foldl (fun acc kx => insertNum kx.1 kx.2 acc) acc)
        (ks'.foldl (fun acc kx => insertByKey kx.1 kx.2 acc) acc') := by
    intro ks ks' h
    induction h with
    | nil => intro acc acc' h; exact h
    | @cons a b l l' hab _ ih =>
      intro acc acc' h
      obtain ⟨h1, q, h2, h3⟩ := hab
      obtain ⟨i, y⟩ := a
      obtain ⟨o, z⟩ := b
      simp only at h1 h2 h3
      subst h1 h2
      exact ih _ _ (insert_agrees hm h3 y _ _ h)
  intro ks ks' h
  have := key ks ks' h [] [] .nil
  have hmap : ∀ {l : List (Nat × Item F)} {l' : List (Option Path × Item F)},
      All2 (fun a b => a.2 = b.2 ∧ ∃ q, b.1 = some q ∧ m.elem q = some a.1) l l' → l.map Prod.snd = l'.map (·.2) := by
    intro l l' h
    induction h with
    | nil => rfl
    | cons h _ ih => rw [List.map_cons, List.map_cons, h.1, ih]
  exact hmap this

theorem agrees_union {doc : Node} (hd : doc.ElemAt []) (x : Item F) {l r : QGen F} {lr rr : Res F} (hl : l.Agrees (MarksInv doc) lr)
    (hr : r.Agrees (MarksInv doc) rr) (nl : lr.NoRoot) (nr : rr.NoRoot) :
    (unionG doc x l r).Agrees (MarksInv doc) (unionRes doc x lr rr) := by
  unfold unionG unionRes
  by_cases hx : x.isNode = true
  case neg => rw [if_neg hx, if_neg hx]; exact agrees_fail
  rw [if_pos hx, if_pos hx]
  intro w m hm
  have hm0 : m.Ordered doc := by
    cases w with
    | false => exact hm
    | true => exact .inr hm
  have hnum : (if (m.of x).isSome then m else indexMarks doc m x).Numbered doc := by
    by_cases hs : (m.of x).isSome = true
    · rw [if_pos hs]
      rcases hm0 with ⟨h1, h2⟩ | h
      · cases x with
        | root => simp only [Marks.of] at hs; rw [h1] at hs; cases hs
        | node p => simp only [Marks.of] at hs; rw [h2] at hs; cases hs
        | _ => cases hs
      · exact h
    · rw [if_neg hs]
      exact index_numbered hd hm0 x
  refine ⟨fun _ => hnum, true, fun _ => rfl, hnum, ?_⟩
  refine agreesAt_toList (hl true) ?_ ?_
  · intro hl1 w1 hw1
    refine agreesAt_toList (hr w1) ?_ ?_
    · intro hr1 w2 hw2 m' hm'
      have hw : w2 = true := hw2 (hw1 rfl)
      subst hw
      have hm' : m'.Numbered doc := hm'
      refine ⟨id, true, fun _ => rfl, hm', ?_⟩
      dsimp only [id]
      simp only [hl1, hr1]
      unfold sortMarked
      rcases mapM_agrees hm' x.isRoot (lr.items ++ rr.items) (fun y hy => by
        rcases List.mem_append.1 hy with h | h
        · exact nl y h
        · exact nr y h) with ⟨h1, h2⟩ | ⟨ks, ks', h1, h2, h3⟩
      · rw [h1, h2]; exact agrees_fail _
      · rw [h1, h2]
        simp only [Option.map_some]
        rw [sort_agrees hm' ks ks' h3]
        exact agreesAt_ofList _ _ _
    · intro hr1
      simp only [hl1]
  · intro hl1
    cases ht : lr.tail with
    | done => exact absurd ht hl1
    | err e => rfl
    | out => rfl

/-! ### evaluation -/

section
set_option linter.unusedSectionVars false
variable (fo : FloatOps F) (doc : Node) (vars : Str → Option (Item F)) (n : Nat) (fe : Bool)
  {dyn : Str → Except XErr (Item F → QGen F)} {dyn' : Str → Except XErr (Item F → Res F)}
  (hdyn : fe = true → ∀ s, AgreesDyn (MarksInv doc) (dyn s) (dyn' s))
  (hd : doc.ElemAt []) (hvars : ∀ v y, vars v = some y → y.isRoot = false)
include hdyn hd hvars

mutual
  theorem agrees_eval : ∀ (e : Expr F), e.plainUnions fe = true → ∀ x,
      (evalG fo doc vars n dyn e x).Agrees (MarksInv doc) (eval fo doc vars n dyn' e x)
    | .lit y, _, x => by simp only [evalG, eval]; exact agrees_one _
    | .neg e, h, x => by
      simp only [Expr.plainUnions] at h
      simp only [evalG, eval]
      refine agrees_first (agrees_eval e h x) ?_
      cases (eval fo doc vars n dyn' e x).first with
      | got y => exact agrees_fail
      | empty => exact agrees_fail
      | stop t => exact agrees_stop
    | .slash l r, h, x => by
      simp only [Expr.plainUnions, Bool.and_eq_true] at h
      simp only [evalG, eval]
      exact agrees_bind (marksInv_le doc) (agrees_eval l h.1 x) fun y => agrees_eval r h.2 _
    | .dslash l r, h, x => by
      simp only [Expr.plainUnions, Bool.and_eq_true] at h
      have ihr := agrees_eval r h.2
      simp only [evalG, eval]
      refine agrees_bind (marksInv_le doc) (agrees_eval l h.1 x) fun y => ?_
      cases r <;> first | exact agrees_ofRes _ | exact ihr _
    | .union l r, h, x => by
      simp only [Expr.plainUnions, Bool.and_eq_true] at h
      simp only [evalG, eval]
      exact agrees_union hd x (agrees_eval l h.1.2 x) (agrees_eval r h.2 x) (noRoot_eval fo vars n dyn' hd hvars l h.1.1.1 x)
        (noRoot_eval fo vars n dyn' hd hvars r h.1.1.2 x)
    | .eq l r, h, x => by
      simp only [Expr.plainUnions, Bool.and_eq_true] at h
      simp only [evalG, eval]
      exact agrees_eq fo doc (marksInv_le doc) (agrees_eval l h.1 x) (agrees_eval r h.2 x)
    | .ne l r, h, x => by
      simp only [Expr.plainUnions, Bool.and_eq_true] at h
      simp only [evalG, eval]
      exact agrees_need (agrees_eval l h.1 x) fun a => agrees_need (agrees_eval r h.2 x) fun b => agrees_one _
    | .rel op l r, h, x => by
      simp only [Expr.plainUnions, Bool.and_eq_true] at h
      simp only [evalG, eval]
      refine agrees_need (agrees_eval l h.1 x) fun a => agrees_need (agrees_eval r h.2 x) fun b => ?_
      cases a.pyRel fo doc op b with
      | none => exact agrees_fail
      | some v => exact agrees_one _
    | .or l r, h, x => by
      simp only [Expr.plainUnions, Bool.and_eq_true] at h
      simp only [evalG, eval]
      refine agrees_need (agrees_eval l h.1 x) fun a => ?_
      split
      · exact agrees_one _
      · exact agrees_need (agrees_eval r h.2 x) fun b => agrees_one _
    | .and l r, h, x => by
      simp only [Expr.plainUnions, Bool.and_eq_true] at h
      simp only [evalG, eval]
      refine agrees_need (agrees_eval l h.1 x) fun a => ?_
      split
      · exact agrees_need (agrees_eval r h.2 x) fun b => agrees_one _
      · exact agrees_one _
    | .arith _ _ _, _, x => by simp only [evalG, eval]; exact agrees_fail
    | .abs none, _, x => by simp only [evalG, eval]; exact agrees_ofRes _
    | .abs (some r), h, x => by
      simp only [Expr.plainUnions] at h
      simp only [evalG, eval]
      refine agrees_bind (marksInv_le doc) (agrees_ofRes _) fun y => agrees_append ?_ (agrees_eval r h y)
      split
      · exact agrees_one _
      · exact agrees_stop
    | .absAll r, h, x => by
      simp only [Expr.plainUnions] at h
      simp only [evalG, eval]
      refine agrees_bind (marksInv_le doc) (agrees_ofRes _) fun y => agrees_append ?_ (agrees_append (agrees_eval r h y) ?_)
      · split
        · exact agrees_one _
        · exact agrees_stop
      · cases Item.below doc y with
        | none => exact agrees_fail
        | some ys => exact agrees_bind (marksInv_le doc) (agrees_ofList _ _) fun z => agrees_eval r h _
    | .step a t, _, x => by simp only [evalG, eval]; exact agrees_ofRes _
    | .test t, _, x => by simp only [evalG, eval]; exact agrees_ofList _ _
    | .pred lhs ps, h, x => by
      simp only [Expr.plainUnions, Bool.and_eq_true] at h
      simp only [evalG, eval]
      exact agrees_predLoop (marksInv_le doc) (fun w pos y k s h1 h2 => agrees_evalPreds ps h.2 pos (y.orElse fo doc x) w k s h1 h2) (agrees_eval lhs h.1 x) 1
    | .dot, _, x => by simp only [evalG, eval]; exact agrees_one _
    | .dotdot, _, x => by
      simp only [evalG, eval]
      cases x.parent with
      | none => exact agrees_fail
      | some o => cases o with
        | none => exact agrees_ofRes _
        | some y => exact agrees_one _
    | .var v, _, x => by
      simp only [evalG, eval]
      cases vars v with
      | none => exact agrees_fail
      | some y => exact agrees_one _
    | .call f args, h, x => by
      simp only [Expr.plainUnions, Bool.and_eq_true, Bool.or_eq_true, decide_eq_true_eq] at h
      simp only [evalG, eval]
      refine agrees_call fo doc (marksInv_le doc) x f (fun hf => hdyn ?_) args (agrees_evalArgs args h.2 x)
      rcases h.1 with h | h
      · exact h
      · exact absurd hf h
    | .seq es, h, x => by
      simp only [Expr.plainUnions] at h
      simp only [evalG, eval]
      exact agrees_evalSeq es h x
  theorem agrees_evalPreds : ∀ (ps : List (Expr F)), Expr.plainUnionsAll fe ps = true → ∀ (pos : Nat) (x : Item F) (w : Bool)
      (k : Bool → QGen F) (s : Res F),
      (∀ b, evalPreds fo doc vars n dyn' pos ps x = .inl b → ∀ w', (w = true → w' = true) → (k b).AgreesAt (MarksInv doc) w' s) →
      (∀ t, evalPreds fo doc vars n dyn' pos ps x = .inr t → s = ⟨[], t⟩) →
      (evalPredsG fo doc vars n dyn pos ps x k).AgreesAt (MarksInv doc) w s
    | [], _, pos, x, w, k, s, h1, h2 => by
      simp only [evalPredsG]
      exact h1 true (by simp only [evalPreds]) w id
    | p :: r, h, pos, x, w, k, s, h1, h2 => by
      simp only [Expr.plainUnionsAll, Bool.and_eq_true] at h
      have ih := agrees_evalPreds r h.2 pos x
      simp only [evalPreds] at h1 h2
      simp only [evalPredsG]
      refine agreesAt_first (agrees_eval p h.1 x w) ?_
      intro w' hw
      have hp : predHolds fo doc pos (eval fo doc vars n dyn' p x) = predFirst fo doc pos (eval fo doc vars n dyn' p x).first := rfl
      rw [hp] at h1 h2
      generalize predFirst fo doc pos (eval fo doc vars n dyn' p x).first = v at h1 h2
      match v with
      | .inl true => exact ih w' k s (fun b hb w'' h' => h1 b hb w'' fun h'' => h' (hw h'')) h2
      | .inl false => exact h1 false rfl w' hw
      | .inr t => exact h2 t rfl
  theorem agrees_evalArgs : ∀ (es : List (Expr F)), Expr.plainUnionsAll fe es = true → ∀ (x : Item F),
      All2 (QGen.Agrees (MarksInv doc)) (evalArgsG fo doc vars n dyn es x) (evalArgs fo doc vars n dyn' es x)
    | [], _, x => by simp only [evalArgsG, evalArgs]; exact .nil
    | e :: r, h, x => by
      simp only [Expr.plainUnionsAll, Bool.and_eq_true] at h
      simp only [evalArgsG, evalArgs]
      exact .cons (agrees_eval e h.1 x) (agrees_evalArgs r h.2 x)
  theorem agrees_evalSeq : ∀ (es : List (Expr F)), Expr.plainUnionsAll fe es = true → ∀ (x : Item F),
      (evalSeqG fo doc vars n dyn es x).Agrees (MarksInv doc) (evalSeq fo doc vars n dyn' es x)
    | [], _, x => by simp only [evalSeqG, evalSeq]; exact agrees_stop
    | e :: r, h, x => by
      simp only [Expr.plainUnionsAll, Bool.and_eq_true] at h
      simp only [evalSeqG, evalSeq]
      exact agrees_append (agrees_eval e h.1 x) (agrees_evalSeq r h.2 x)
end

end

theorem agrees_evalN (fo : FloatOps F) (doc : Node) (parse : Str → Except XErr (Expr F)) (vars : Str → Option (Item F)) (fe : Bool)
    (hp : fe = true → ∀ s e, parse s = .ok e → e.plainUnions fe = true) (hd : doc.ElemAt [])
    (hvars : ∀ v y, vars v = some y → y.isRoot = false) :
    ∀ (n : Nat) (e : Expr F), e.plainUnions fe = true → ∀ x,
      (evalNG fo doc parse vars n e x).Agrees (MarksInv doc) (evalN fo doc parse vars n e x)
  | 0, e, h, x => by
    unfold evalNG evalN
    refine agrees_eval fo doc vars 0 fe (fun hf s => ?_) hd hvars e h x
    cases h : parse s with
    | error er => exact .inl ⟨er, rfl, rfl⟩
    | ok e' => exact .inr ⟨_, _, rfl, rfl, fun _ => agrees_stop⟩
  | n + 1, e, h, x => by
    unfold evalNG evalN
    refine agrees_eval fo doc vars (n + 1) fe (fun hf s => ?_) hd hvars e h x
    cases h' : parse s with
    | error er => exact .inl ⟨er, rfl, rfl⟩
    | ok e' => exact .inr ⟨_, _, rfl, rfl, fun y => agrees_evalN fo doc parse vars fe hp hd hvars n e' (hp hf s e' h') y⟩

/-! ### sessions -/

theorem resume_agrees {doc : Node} {g : QGen F} {w : Bool} {r : Res F} {m : Marks} (h : g.AgreesAt (MarksInv doc) w r)
    (hm : MarksInv doc w m) :
    (g.resume m).1 = r.pop.1 ∧ (MarksInv doc true m → MarksInv doc true (g.resume m).2.2) ∧
      ∃ w', (w = true → w' = true) ∧ MarksInv doc w' (g.resume m).2.2 ∧ (g.resume m).2.1.AgreesAt (MarksInv doc) w' r.pop.2 := by
  induction g generalizing w r m with
  | stop t =>
    have h : r = ⟨[], t⟩ := h
    subst h
    exact ⟨rfl, id, w, id, hm, rfl⟩
  | yield x g ih =>
    obtain ⟨r', h1, rfl⟩ := h
    exact ⟨rfl, id, w, id, hm, h1⟩
  | act u k ih =>
    obtain ⟨h1, w', h2, h3, h4⟩ := h m hm
    obtain ⟨i1, i2, w'', i3, i4, i5⟩ := ih (u m) h4 h3
    exact ⟨i1, fun h => i2 (h1 h), w'', fun h => i3 (h2 h), i4, i5⟩

end Amara
