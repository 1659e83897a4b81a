import Verif.Lemmas.XHeapEval
import Verif.Spec.XGrammar
/-
Evaluating on objects in memory and on the document they stand for (C153): operators, functions and expressions.
-/
namespace Amara

variable {F : Type}

section
variable (fo : FloatOps F) {h : Heap} {t : Id} {doc : Node} (hr : Rep h none t doc) {k : Nat} (hk : doc.count ≤ k)

/-! ### unions -/

section
include hr hk

/-- The numbers that the nodes get: all elements have one, and they go up in document order. -/
theorem inMem_numbers (hd : doc.isText = false) {x : Item F} {x' : Mem.Item F} (hx : InMem h t x x') (hn : x.isNode = true) :
    ∃ m, x'.numbers h k = some m ∧
      (∀ p i, h.locate t p = some i → h.isElemB i = true → ∃ c, m.obj i = some c ∧ (x.isRoot = true → 0 < c)) ∧
      (∀ p i, h.locate t p = some i → h.isElemB i = false → m.obj i = none) ∧
      (x.isRoot = true → m.root = some 0) ∧
      (∀ p q i j c d, h.locate t p = some i → h.locate t q = some j → m.obj i = some c → m.obj j = some d → docLt p q → c < d) := by
  obtain ⟨l, h1, h2⟩ := located_under.1 doc [] t none hr rfl
  have hb := below_of_allBelow h1
  have hnd : (t :: l.filter h.isElemB).Nodup := elements_nodup hr ⟨_, hb, rfl⟩
  have hlen : (l.filter h.isElemB).length ≤ k := by
    have := List.length_filter_le h.isElemB l
    have := all2_length h2
    have := under_length.1 doc []
    omega
  have ht : h.isElemB t = true := by
    cases doc with
    | text s => simp [Node.isText] at hd
    | elem n as ts => obtain ⟨cs, q, ho, _⟩ := hr; simp [Heap.isElemB, ho]
  have hpaths : All2 (fun q j => h.locate t q = some j) ([] :: doc.under []) (t :: l) := .cons rfl h2
  have hord : ([] :: doc.under []).Pairwise docLt := by
    refine List.pairwise_cons.2 ⟨?_, under_order.1 doc []⟩
    intro q hq
    obtain ⟨r, y, hne, he, _⟩ := (under_mem.1 _ _ _).1 hq
    rw [he]
    cases r with
    | nil => exact absurd rfl hne
    | cons j r => exact docLt_child [] j r
  have hall : ∀ p i, h.locate t p = some i → i ∈ t :: l := by
    intro p i hl
    have hp : p ∈ [] :: doc.under [] := by
      cases p with
      | nil => exact List.mem_cons_self ..
      | cons j r =>
        obtain ⟨s, hs, _⟩ := locate_rep _ hr hl
        exact List.mem_cons_of_mem _ ((under_mem.1 _ _ _).2 ⟨j :: r, s, by simp, rfl, hs⟩)
    obtain ⟨j, hj, hj'⟩ := all2_left hpaths p hp
    rw [hl] at hj'
    cases hj'
    exact hj
  have hin : ∀ p i, h.locate t p = some i → h.isElemB i = true → i ∈ t :: l.filter h.isElemB := by
    intro p i hl he
    rcases List.mem_cons.1 (hall p i hl) with rfl | hm
    · exact List.mem_cons_self ..
    · exact List.mem_cons_of_mem _ (List.mem_filter.2 ⟨hm, he⟩)
  have hfil : t :: l.filter h.isElemB = (t :: l).filter h.isElemB := by rw [List.filter_cons, if_pos ht]
  -- what numbering gives, from any first number
  have key : ∀ (b : Nat) (m0 : Numbers), (∀ i, m0.obj i = none) → ∃ m, numberRest h k (descGen t) b (m0.put t b) = some m ∧
      m.root = m0.root ∧ (∀ p i, h.locate t p = some i → h.isElemB i = true → ∃ c, m.obj i = some c ∧ b ≤ c) ∧
      (∀ p i, h.locate t p = some i → h.isElemB i = false → m.obj i = none) ∧
      (∀ p q i j c d, h.locate t p = some i → h.locate t q = some j → m.obj i = some c → m.obj j = some d → docLt p q → c < d) := by
    intro b m0 hm0
    obtain ⟨m, e1, e2, e3, e4, e5⟩ := number_goUp h t _ k b m0 hb hnd hlen
    have hnone : ∀ p i, h.locate t p = some i → h.isElemB i = false → m.obj i = none := by
      intro p i hl he
      rw [e5 i ?_]
      · exact hm0 i
      · rw [hfil]
        intro hm
        rw [(List.mem_filter.1 hm).2] at he
        cases he
    refine ⟨m, e1, e2, fun p i hl he => e4 i (hin p i hl he), hnone, ?_⟩
    intro p q i j c d hp hq hc hd' hlt
    have hei : h.isElemB i = true := by
      cases he : h.isElemB i with
      | true => rfl
      | false => rw [hnone p i hp he] at hc; cases hc
    have hej : h.isElemB j = true := by
      cases he : h.isElemB j with
      | true => rfl
      | false => rw [hnone q j hq he] at hd'; cases hd'
    -- in the list, one comes before the other
    have hpw : (t :: l.filter h.isElemB).Pairwise fun a b => ∀ c d, m.obj a = some c → m.obj b = some d → c < d := by
      have := e3.2
      rw [List.pairwise_map] at this
      exact this
    have hpw2 : (t :: l).Pairwise fun a b => ∀ p q, h.locate t p = some a → h.locate t q = some b → docLt p q := by
      have aux : ∀ {ps : List Path} {is : List Id}, All2 (fun q j => h.locate t q = some j) ps is → ps.Pairwise docLt →
          is.Pairwise fun a b => ∀ p q, h.locate t p = some a → h.locate t q = some b → docLt p q := by
        intro ps is ha
        induction ha with
        | nil => exact fun _ => .nil
        | @cons p0 i0 ps is a1 a2 ih =>
          intro hps
          rw [List.pairwise_cons] at hps
          refine List.pairwise_cons.2 ⟨?_, ih hps.2⟩
          intro b hb p q hp hq
          obtain ⟨n, hn⟩ := List.getElem?_of_mem hb
          have hnl : n < ps.length := by
            rw [all2_length a2]; exact (List.getElem?_eq_some_iff.1 hn).1
          have hq' := all2_index a2 n ps[n] b (List.getElem?_eq_getElem hnl) hn
          rw [locate_inj hr _ p p0 rfl hp a1, locate_inj hr _ q ps[n] rfl hq hq']
          exact hps.1 _ (List.getElem_mem hnl)
      exact aux hpaths hord
    have hi := hin p i hp hei
    have hj := hin q j hq hej
    have hsub : (t :: l.filter h.isElemB).Sublist (t :: l) := by rw [hfil]; exact List.filter_sublist
    have hpw3 := hpw2.sublist hsub
    rw [List.pairwise_iff_getElem] at hpw hpw3
    obtain ⟨a, ha, rfl⟩ := List.getElem_of_mem hi
    obtain ⟨b', hb', rfl⟩ := List.getElem_of_mem hj
    rcases Nat.lt_trichotomy a b' with hab | hab | hab
    · exact hpw a b' ha hb' hab c d hc hd'
    · subst hab
      rw [locate_inj hr _ p q rfl hp hq] at hlt
      exact (docLt_irrefl _ hlt).elim
    · have := hpw3 b' a hb' ha hab q p hq hp
      exact (docLt_irrefl _ (docLt_trans hlt this)).elim
  have hnot : ∀ {p : Path} {i : Id}, h.locate t p = some i → topOf h k i = some t := by
    intro p i hl
    obtain ⟨s, hs, _, _⟩ := locate_rep p hr hl
    have hc := count_at p hs
    exact topOf_upTimes (rep_parent hr) p.length k i (up_located hr _ rfl hl) (by omega)
  cases hx with
  | root =>
    obtain ⟨m, e1, e2, e3, e4, e5⟩ := key 1 ⟨some 0, fun _ => none⟩ fun _ => rfl
    refine ⟨m, e1, fun p i hl he => ?_, e4, fun _ => e2, e5⟩
    obtain ⟨c, hc1, hc2⟩ := e3 p i hl he
    exact ⟨c, hc1, fun _ => by omega⟩
  | node hl =>
    obtain ⟨m, e1, e2, e3, e4, e5⟩ := key 0 ⟨none, fun _ => none⟩ fun _ => rfl
    refine ⟨m, ?_, fun p i hl he => ?_, e4, ?_, e5⟩
    · simp only [Mem.Item.numbers, indexDocorder, hnot hl, Option.bind_some]
      exact e1
    · obtain ⟨c, hc1, _⟩ := e3 p i hl he
      exact ⟨c, hc1, fun hh => by simp [Item.isRoot] at hh⟩
    · intro hh; simp [Item.isRoot] at hh
  | attr hl =>
    obtain ⟨m, e1, e2, e3, e4, e5⟩ := key 0 ⟨none, fun _ => none⟩ fun _ => rfl
    refine ⟨m, ?_, fun p i hl he => ?_, e4, ?_, e5⟩
    · simp only [Mem.Item.numbers, indexDocorder, hnot hl, Option.bind_some]
      exact e1
    · obtain ⟨c, hc1, _⟩ := e3 p i hl he
      exact ⟨c, hc1, fun hh => by simp [Item.isRoot] at hh⟩
    · intro hh; simp [Item.isRoot] at hh
  | _ => simp [Item.isNode] at hn

end

/-- An item with its key, and the object with its number. -/
def Keyed (h : Heap) (t : Id) (isRoot : Bool) (m : Numbers) (a : Option Path × Item F) (b : Nat × Mem.Item F) : Prop :=
  InMem h t a.2 b.2 ∧ match a.1 with
    | none => isRoot = true ∧ b.1 = 0
    | some p => ∃ i, h.locate t p = some i ∧ h.isElemB i = true ∧ m.obj i = some b.1

theorem insert_inMem {isRoot : Bool} {m : Numbers}
    (hle : ∀ a a' : Option Path × Item F, ∀ b b' : Nat × Mem.Item F, Keyed h t isRoot m a b → Keyed h t isRoot m a' b' →
      keyLe a.1 a'.1 = decide (b.1 ≤ b'.1))
    {a : Option Path × Item F} {b : Nat × Mem.Item F} (hab : Keyed h t isRoot m a b) {xs ys} (hx : All2 (Keyed h t isRoot m) xs ys) :
    All2 (Keyed h t isRoot m) (insertByKey a.1 a.2 xs) (insertNum b.1 b.2 ys) := by
  induction hx with
  | nil => exact .cons hab .nil
  | @cons x y xs ys h1 h2 ih =>
    obtain ⟨kx, x⟩ := x
    obtain ⟨ky, y⟩ := y
    simp only [insertByKey, insertNum]
    have := hle _ _ _ _ h1 hab
    simp only at this
    rw [this]
    by_cases hc : ky ≤ b.1
    · simp only [hc, decide_true, if_true]
      exact .cons h1 ih
    · simp only [hc, decide_false, if_false, Bool.false_eq_true]
      exact .cons hab (.cons h1 h2)

theorem sort_inMem {isRoot : Bool} {m : Numbers}
    (hle : ∀ a a' : Option Path × Item F, ∀ b b' : Nat × Mem.Item F, Keyed h t isRoot m a b → Keyed h t isRoot m a' b' →
      keyLe a.1 a'.1 = decide (b.1 ≤ b'.1)) {xs : List (Option Path × Item F)} {ys : List (Nat × Mem.Item F)}
    (hx : All2 (Keyed h t isRoot m) xs ys) :
    All2 (Keyed h t isRoot m) (sortByKey xs) (ys.foldl (fun acc kx => insertNum kx.1 kx.2 acc) []) := by
  have aux : ∀ {xs : List (Option Path × Item F)} {ys : List (Nat × Mem.Item F)}, All2 (Keyed h t isRoot m) xs ys →
      ∀ {acc acc'}, All2 (Keyed h t isRoot m) acc acc' →
      All2 (Keyed h t isRoot m) (xs.foldl (fun acc kx => insertByKey kx.1 kx.2 acc) acc)
        (ys.foldl (fun acc kx => insertNum kx.1 kx.2 acc) acc') := by
    intro xs ys hx
    induction hx with
    | nil => intro acc acc' ha; exact ha
    | cons h1 _ ih => intro acc acc' ha; exact ih (insert_inMem hle h1 ha)
  exact aux hx .nil

theorem mapM_inMem {isRoot : Bool} {m : Numbers} {f : Item F → Option (Option Path)} {g : Mem.Item F → Option Nat}
    (hfg : ∀ x y, InMem h t x y → (f x = none ∧ g y = none) ∨ ∃ a b, f x = some a ∧ g y = some b ∧ Keyed h t isRoot m (a, x) (b, y))
    {xs : List (Item F)} {ys : List (Mem.Item F)} (hx : All2 (InMem h t) xs ys) :
    ((xs.mapM fun y : Item F => (f y).map fun a => (a, y)) = none ∧ (ys.mapM fun y : Mem.Item F => (g y).map fun a => (a, y)) = none) ∨
    ∃ ks ks', (xs.mapM fun y : Item F => (f y).map fun a => (a, y)) = some ks ∧
      (ys.mapM fun y : Mem.Item F => (g y).map fun a => (a, y)) = some ks' ∧ All2 (Keyed h t isRoot m) ks ks' := by
  induction hx with
  | nil => exact .inr ⟨[], [], rfl, rfl, .nil⟩
  | @cons x y xs ys h1 _ ih =>
    rw [List.mapM_cons, List.mapM_cons]
    rcases hfg x y h1 with ⟨e1, e2⟩ | ⟨a, b, e1, e2, e3⟩
    · exact .inl ⟨by rw [e1]; rfl, by rw [e2]; rfl⟩
    · rcases ih with ⟨e4, e5⟩ | ⟨ks, ks', e4, e5, e6⟩
      · exact .inl ⟨by rw [e1, e4]; rfl, by rw [e2, e5]; rfl⟩
      · exact .inr ⟨(a, x) :: ks, (b, y) :: ks', by rw [e1, e4]; rfl, by rw [e2, e5]; rfl, .cons e3 e6⟩

section
include hr hk

theorem sim_union (hd : doc.isText = false) {x : Item F} {x' : Mem.Item F} (hx : InMem h t x x') {l r : Res F} {l' r' : Mem.Res F}
    (hl : Sim h t l l') (hrr : Sim h t r r') : Sim h t (unionRes doc x l r) (Mem.unionRes h k x' l' r') := by
  unfold unionRes Mem.unionRes
  rw [inMem_isNode hx]
  split
  · rename_i hn
    obtain ⟨m, e1, e2, e3, e4, e5⟩ := inMem_numbers hr hk hd hx hn
    rw [e1, ← hl.2, ← hrr.2]
    simp only []
    cases l.tail <;> cases r.tail <;> try exact sim_nil
    simp only []
    have hle : ∀ a a' : Option Path × Item F, ∀ b b' : Nat × Mem.Item F, Keyed h t x.isRoot m a b → Keyed h t x.isRoot m a' b' →
        keyLe a.1 a'.1 = decide (b.1 ≤ b'.1) := by
      rintro ⟨ka, a⟩ ⟨ka', a'⟩ ⟨nb, b⟩ ⟨nb', b'⟩ ⟨_, h1⟩ ⟨_, h2⟩
      cases ka with
      | none =>
        simp only at h1
        simp only [keyLe, h1.2, Nat.zero_le, decide_true]
      | some p =>
        obtain ⟨i, i1, i2, i3⟩ := h1
        cases ka' with
        | none =>
          simp only at h2
          obtain ⟨c, c1, c2⟩ := e2 p i i1 i2
          have := c2 h2.1
          rw [i3] at c1
          cases c1
          simp only [keyLe, h2.2]
          rw [eq_comm, decide_eq_false_iff_not]
          simp only at this
          omega
        | some q =>
          obtain ⟨j, j1, j2, j3⟩ := h2
          simp only [keyLe]
          simp only at i3 j3
          cases hb : docLtB q p with
          | true =>
            have := e5 q p j i _ _ j1 i1 j3 i3 ((docLtB_iff _ _).1 hb)
            rw [eq_comm, Bool.not_true, decide_eq_false_iff_not]
            omega
          | false =>
            rw [eq_comm, Bool.not_false, decide_eq_true_eq]
            rcases docLt_total p q with h4 | h4 | h4
            · have := e5 p q i j _ _ i1 j1 i3 j3 h4
              omega
            · subst h4
              rw [i1] at j1; cases j1
              rw [i3] at j3; cases j3
              exact Nat.le_refl _
            · rw [(docLtB_iff _ _).2 h4] at hb; cases hb
    have hfg : ∀ y y', InMem h t y y' → (y.orderKey doc x.isRoot = none ∧ x'.order m y' = none) ∨
        ∃ a b, y.orderKey doc x.isRoot = some a ∧ x'.order m y' = some b ∧ Keyed h t x.isRoot m (a, y) (b, y') := by
      intro y y' hy
      cases hy with
      | root =>
        cases hx with
        | root =>
          refine .inr ⟨none, 0, rfl, ?_, .root, rfl, rfl⟩
          simp only [Mem.Item.order, if_true]
          exact e4 rfl
        | _ => exact .inl ⟨rfl, rfl⟩
      | @node p i hl =>
        rcases node_obj hr hl with ⟨n, as, ts, cs, q, h1, h2, _⟩ | ⟨s, q, h1, h2⟩
        · have he : h.isElemB i = true := by simp [Heap.isElemB, h2]
          obtain ⟨c, c1, _⟩ := e2 p i hl he
          exact .inr ⟨some p, c, by simp only [Item.orderKey, h1], c1, .node hl, i, hl, he, c1⟩
        · have he : h.isElemB i = false := by simp [Heap.isElemB, h2]
          exact .inl ⟨by simp only [Item.orderKey, h1], e3 p i hl he⟩
      | _ => exact .inl ⟨rfl, rfl⟩
    rcases mapM_inMem hfg (all2_append hl.1 hrr.1) with ⟨m1, m2⟩ | ⟨ks, ks', m1, m2, m3⟩
    · rw [m1, m2]; exact sim_nil
    · rw [m1, m2]
      exact ⟨all2_map (sort_inMem hle m3) fun _ _ hh => hh.1, rfl⟩
  · exact sim_nil

/-! ### comparisons, predicates, functions -/

omit hk in
theorem sim_eqLoop {i : Item F} {i' : Mem.Item F} (hi : InMem h t i i') (tl : Tail) {xs xs'} (hx : All2 (InMem h t) xs xs') :
    Mem.eqLoop fo h i' tl xs' = eqLoop fo doc i tl xs := by
  induction hx with
  | nil => rfl
  | cons h1 _ ih => simp only [eqLoop, Mem.eqLoop, inMem_isNode h1, inMem_pyEq fo hr hi h1, ih]

theorem sim_eq {l r : Res F} {l' r' : Mem.Res F} (hl : Sim h t l l') (hrr : Sim h t r r') :
    Sim h t (eqRes fo doc l r) (Mem.eqRes fo h k l' r') := by
  rcases l with ⟨xs, tl⟩
  rcases l' with ⟨xs', tl'⟩
  obtain ⟨h1, h2⟩ := hl
  simp only at h1 h2
  subst h2
  unfold eqRes Mem.eqRes
  simp only []
  cases h1 with
  | nil =>
    simp only []
    split
    · exact sim_one .bool
    · exact sim_nil
  | cons hx _ =>
    simp only []
    rw [sim_eqLoop fo hr (inMem_atom hr hk hx) _ hrr.1, ← hrr.2]
    cases eqLoop fo doc _ r.tail r.items with
    | inl b => exact sim_one .bool
    | inr tl =>
      cases tl
      · simp only []
        split
        · exact sim_one .bool
        · exact sim_nil
      all_goals exact sim_nil

omit hk in
theorem sim_pred (pos : Nat) {r : Res F} {r' : Mem.Res F} (hs : Sim h t r r') : Mem.predHolds fo h pos r' = predHolds fo doc pos r := by
  obtain ⟨h1, h2⟩ := hs
  rcases r with ⟨xs, tl⟩
  rcases r' with ⟨xs', tl'⟩
  simp only at h1 h2
  subst h2
  cases h1 with
  | nil => cases tl <;> rfl
  | cons hx _ =>
    simp only [predHolds, Mem.predHolds, Res.first, Mem.Res.first]
    have := inMem_toBool fo hr hx
    cases hx <;> simp only [] at * <;> first | rw [this] | (cases fo.trunc _ <;> rfl)

omit hr hk in
theorem sim_predLoop {f : Nat → Item F → Bool ⊕ Tail} {f' : Nat → Mem.Item F → Bool ⊕ Tail} {tl : Tail}
    (hf : ∀ pos x x', InMem h t x x' → f' pos x' = f pos x) {xs xs'} (hx : All2 (InMem h t) xs xs') : ∀ (pos : Nat),
    Sim h t (predLoop f tl pos xs) (Mem.predLoop f' tl pos xs') := by
  induction hx with
  | nil => intro pos; exact sim_nil
  | @cons x x' _ _ h1 _ ih =>
    intro pos
    simp only [predLoop, Mem.predLoop, hf pos x x' h1]
    cases f pos x with
    | inr tl => exact sim_nil
    | inl b =>
      obtain ⟨i1, i2⟩ := ih (pos + 1)
      cases b with
      | false => exact ⟨i1, i2⟩
      | true => exact ⟨.cons h1 i1, i2⟩

theorem sim_strArg {a : Res F} {a' : Mem.Res F} {f : Str → Res F} {f' : Str → Mem.Res F} (ha : Sim h t a a')
    (hf : ∀ s, Sim h t (f s) (f' s)) : Sim h t (strArg fo doc a f) (Mem.strArg fo h k a' f') := by
  refine sim_orDefault .bool ha fun x x' hx => ?_
  rw [inMem_toStr fo hr hk hx]
  exact hf _

omit hr hk in
theorem lit_inMem {y : Item F} (hy : y.Atomic) : InMem h t y (Mem.ofLit y) := by
  cases y <;> first | exact .str | exact .int | exact .float | exact .bool | exact hy.elim

theorem sim_intArg {e : Expr F} (he : ∀ y, e = .lit y → y.Atomic) {f : Int → Res F} {f' : Int → Mem.Res F}
    (hf : ∀ i, Sim h t (f i) (f' i)) : Sim h t (intArg fo doc e f) (Mem.intArg fo h k e f') := by
  unfold intArg Mem.intArg
  cases e with
  | lit x =>
    simp only []
    refine sim_need (sim_toNum fo hr hk (lit_inMem (he x rfl))) fun v v' hv => ?_
    cases hv <;> simp only [] <;> try exact sim_nil
    · exact hf _
    · cases fo.trunc _
      · exact sim_nil
      · exact hf _
    · exact hf _
  | _ => exact sim_nil

theorem sim_str2 {f : Str → Str → Res F} {f' : Str → Str → Mem.Res F} (hf : ∀ s u, Sim h t (f s u) (f' s u)) {rs rs'}
    (hs : All2 (Sim h t) rs rs') : Sim h t (fnStr2 fo doc f rs) (Mem.fnStr2 fo h k f' rs') := by
  unfold fnStr2 Mem.fnStr2
  cases hs with
  | nil => exact sim_nil
  | cons h1 hs =>
    cases hs with
    | nil => exact sim_nil
    | cons h2 hs =>
      cases hs with
      | nil => exact sim_strArg fo hr hk h1 fun s => sim_strArg fo hr hk h2 fun u => hf s u
      | cons _ _ => exact sim_nil

omit hr hk in
theorem sim_appendAll {rs : List (Res F)} {rs' : List (Mem.Res F)} (hs : All2 (Sim h t) rs rs') :
    Sim h t (rs.foldr Res.append Res.nil) (rs'.foldr Mem.Res.append Mem.Res.nil) := by
  induction hs with
  | nil => exact sim_nil
  | cons h1 _ ih => exact sim_append h1 ih

omit hr hk in
/-- A function of at most one argument. -/
theorem sim_args {g : List (Res F) → Res F} {g' : List (Mem.Res F) → Mem.Res F} (h0 : Sim h t (g []) (g' []))
    (h1 : ∀ a a', Sim h t a a' → Sim h t (g [a]) (g' [a']))
    (h2 : ∀ a b l a' b' l', Sim h t (g (a :: b :: l)) (g' (a' :: b' :: l'))) {rs rs'} (hs : All2 (Sim h t) rs rs') :
    Sim h t (g rs) (g' rs') := by
  cases hs with
  | nil => exact h0
  | cons ha hs =>
    cases hs with
    | nil => exact h1 _ _ ha
    | cons _ _ => exact h2 _ _ _ _ _ _

/-- What an expression given as a text gives, in the document and in memory. -/
def SimDyn (h : Heap) (t : Id) (d : Except XErr (Item F → Res F)) (d' : Except XErr (Mem.Item F → Mem.Res F)) : Prop :=
  (∃ e, d = .error e ∧ d' = .error e) ∨
  ∃ g g', d = .ok g ∧ d' = .ok g' ∧ ∀ x x', InMem h t x x' → Sim h t (g x) (g' x')

theorem sim_call {dyn : Str → Except XErr (Item F → Res F)} {dyn' : Str → Except XErr (Mem.Item F → Mem.Res F)}
    (hdyn : ∀ s, SimDyn h t (dyn s) (dyn' s)) {x : Item F} {x' : Mem.Item F} (hx : InMem h t x x') (m : Str)
    {es : List (Expr F)} (hes : ∀ y, .lit y ∈ es → y.Atomic) {rs rs'} (hs : All2 (Sim h t) rs rs') :
    Sim h t (callFn fo doc dyn x m es rs) (Mem.callFn fo h k dyn' x' m es rs') := by
  have hf : ∀ {er : XErr}, Sim h t (Res.fail er : Res F) (.fail er) := sim_nil
  have hb : ∀ b : Bool, Sim h t (Res.one (.bool b) : Res F) (.one (.bool b)) := fun b => sim_one .bool
  have hst : ∀ s : Str, Sim h t (Res.one (.str s) : Res F) (.one (.str s)) := fun b => sim_one .str
  have hi : ∀ i : Int, Sim h t (Res.one (.int i) : Res F) (.one (.int i)) := fun b => sim_one .int
  have hconst : ∀ {r : Res F} {r' : Mem.Res F}, Sim h t r r' → Sim h t (fnConst r rs) (Mem.fnConst r' rs') := by
    intro r r' hrr
    unfold fnConst Mem.fnConst
    cases hs with
    | nil => exact hrr
    | cons _ _ => exact hf
  have hpart : ∀ u c : Str, Sim h t (if u = [] then Res.fail .value else .one (.str c) : Res F)
      (if u = [] then .fail .value else .one (.str c)) := by
    intro u c
    split
    · exact hf
    · exact hst _
  unfold callFn Mem.callFn
  by_cases hc0 : m = "name".toList
  · rw [if_pos hc0, if_pos hc0]
    refine sim_args ?_ (fun a a' ha => sim_orDefault .str ha fun y y' hy => ?_) (fun _ _ _ _ _ _ => hf) hs
    · simp only [fnName, Mem.fnName]; rw [inMem_nameOf hr hx]; exact hst _
    · rw [inMem_nameOf hr hy]; exact hst _
  rw [if_neg hc0, if_neg hc0]
  by_cases hc1 : m = "last".toList
  · rw [if_pos hc1, if_pos hc1]
    exact hconst (hi _)
  rw [if_neg hc1, if_neg hc1]
  by_cases hc2 : m = "count".toList
  · rw [if_pos hc2, if_pos hc2]
    unfold fnCount Mem.fnCount
    cases hs with
    | nil => exact hf
    | cons h1 hs =>
      cases hs with
      | nil =>
        obtain ⟨h1, h2⟩ := h1
        simp only [← h2, ← all2_length h1]
        split
        · exact hi _
        · exact sim_nil
      | cons _ _ => exact hf
  rw [if_neg hc2, if_neg hc2]
  by_cases hc3 : m = "string".toList
  · rw [if_pos hc3, if_pos hc3]
    exact sim_args (sim_one (inMem_toStrItem fo hr hk hx)) (fun a a' ha => sim_orDefault .str ha fun y y' hy =>
      sim_one (inMem_toStrItem fo hr hk hy)) (fun _ _ _ _ _ _ => hf) hs
  rw [if_neg hc3, if_neg hc3]
  by_cases hc4 : m = "concat".toList
  · rw [if_pos hc4, if_pos hc4]
    obtain ⟨h1, h2⟩ := sim_appendAll hs
    unfold concatRes Mem.concatRes
    simp only [← h2]
    have : ((rs'.foldr Mem.Res.append Mem.Res.nil).items.flatMap fun x => x.toStr fo h k) =
        (rs.foldr Res.append Res.nil).items.flatMap fun x => x.toStr fo doc := by
      clear h2
      generalize (rs'.foldr Mem.Res.append Mem.Res.nil).items = ys at h1
      generalize (rs.foldr Res.append Res.nil).items = xs at h1
      induction h1 with
      | nil => rfl
      | cons a _ ih => rw [List.flatMap_cons, List.flatMap_cons, inMem_toStr fo hr hk a, ih]
    rw [this]
    cases (rs.foldr Res.append Res.nil).tail
    · exact hst _
    all_goals exact sim_nil
  rw [if_neg hc4, if_neg hc4]
  by_cases hc5 : m = "starts-with".toList
  · rw [if_pos hc5, if_pos hc5]
    exact sim_str2 fo hr hk (fun s t => hb _) hs
  rw [if_neg hc5, if_neg hc5]
  by_cases hc6 : m = "contains".toList
  · rw [if_pos hc6, if_pos hc6]
    exact sim_str2 fo hr hk (fun s t => hb _) hs
  rw [if_neg hc6, if_neg hc6]
  by_cases hc7 : m = "substring-before".toList
  · rw [if_pos hc7, if_pos hc7]
    exact sim_str2 fo hr hk (fun s t => hpart t _) hs
  rw [if_neg hc7, if_neg hc7]
  by_cases hc8 : m = "substring-after".toList
  · rw [if_pos hc8, if_pos hc8]
    exact sim_str2 fo hr hk (fun s t => hpart t _) hs
  rw [if_neg hc8, if_neg hc8]
  by_cases hc9 : m = "substring".toList
  · rw [if_pos hc9, if_pos hc9]
    unfold fnSubstring Mem.fnSubstring
    match es, hes with
    | [e0, e1, e2], hes =>
      simp only []
      cases hs with
      | nil => exact hf
      | cons h1 _ =>
        refine sim_strArg fo hr hk h1 fun s => sim_intArg fo hr hk ?_ fun i => sim_intArg fo hr hk ?_ fun k => hst _
        · rintro y rfl; exact hes y (by simp)
        · rintro y rfl; exact hes y (by simp)
    | [], _ => exact hf
    | [_], _ => exact hf
    | [_, _], _ => exact hf
    | _ :: _ :: _ :: _ :: _, _ => exact hf
  rw [if_neg hc9, if_neg hc9]
  by_cases hc10 : m = "string-length".toList
  · rw [if_pos hc10, if_pos hc10]
    refine sim_args hf (fun a a' ha => sim_orDefault .str ha fun y y' hy => ?_) (fun _ _ _ _ _ _ => hf) hs
    rw [inMem_strOf hr hy]
    cases y.strOf doc
    · exact hf
    · exact hi _
  rw [if_neg hc10, if_neg hc10]
  by_cases hc11 : m = "boolean".toList
  · rw [if_pos hc11, if_pos hc11]
    refine sim_args hf (fun a a' ha => sim_orDefault .str ha fun y y' hy => ?_) (fun _ _ _ _ _ _ => hf) hs
    rw [inMem_toBool fo hr hy]; exact hb _
  rw [if_neg hc11, if_neg hc11]
  by_cases hc12 : m = "not".toList
  · rw [if_pos hc12, if_pos hc12]
    refine sim_args hf (fun a a' ha => sim_orDefault .bool ha fun y y' hy => ?_) (fun _ _ _ _ _ _ => hf) hs
    rw [inMem_toBool fo hr hy]; exact hb _
  rw [if_neg hc12, if_neg hc12]
  by_cases hc13 : m = "true".toList
  · rw [if_pos hc13, if_pos hc13]
    exact hconst (hb _)
  rw [if_neg hc13, if_neg hc13]
  by_cases hc14 : m = "false".toList
  · rw [if_pos hc14, if_pos hc14]
    exact hconst (hb _)
  rw [if_neg hc14, if_neg hc14]
  by_cases hc15 : m = "number".toList
  · rw [if_pos hc15, if_pos hc15]
    exact sim_args (hi _) (fun a a' ha => sim_orDefault .str ha fun y y' hy => sim_toNum fo hr hk hy) (fun _ _ _ _ _ _ => hf) hs
  rw [if_neg hc15, if_neg hc15]
  by_cases hc16 : m = "for-each".toList
  · rw [if_pos hc16, if_pos hc16]
    unfold fnForEach Mem.fnForEach
    cases hs with
    | nil => exact hf
    | cons h1 hs =>
      cases hs with
      | nil => exact hf
      | cons h2 hs =>
        cases hs with
        | nil =>
          refine sim_strArg fo hr hk h2 fun s => ?_
          rcases hdyn s with ⟨e, e1, e2⟩ | ⟨g, g', e1, e2, e3⟩
          · rw [e1, e2]; exact sim_nil
          · rw [e1, e2]
            exact sim_bind h1 fun y y' hy => e3 _ _ (inMem_orElse fo hr hy hx)
        | cons _ _ => exact hf
  rw [if_neg hc16, if_neg hc16]
  by_cases hc17 : m = "lookup".toList
  · rw [if_pos hc17, if_pos hc17]
    exact sim_str2 fo hr hk (fun s t => hf) hs
  rw [if_neg hc17, if_neg hc17]
  by_cases hc18 : m = "normalize-space".toList ∨ m = "sum".toList ∨ m = "floor".toList ∨ m = "ceiling".toList ∨ m = "round".toList
  · rw [if_pos hc18, if_pos hc18]
    unfold fnTodo Mem.fnTodo
    rw [all2_length hs]
    split <;> exact hf
  rw [if_neg hc18, if_neg hc18]
  by_cases hc19 : m = "translate".toList ∨ m = "same-lang".toList
  · rw [if_pos hc19, if_pos hc19]
    unfold fnTodo Mem.fnTodo
    rw [all2_length hs]
    split <;> exact hf
  rw [if_neg hc19, if_neg hc19]
  exact hf

end

omit hr hk in
theorem litsPlain_mem : ∀ {es : List (Expr F)}, Expr.LitsPlainAll es → ∀ y, Expr.lit y ∈ es → y.Atomic
  | [], _, _, hm => by cases hm
  | e :: es, hp, y, hm => by
    simp only [Expr.LitsPlainAll] at hp
    rcases List.mem_cons.1 hm with he | hm
    · rw [← he] at hp
      simp only [Expr.LitsPlain] at hp
      exact hp.1
    · exact litsPlain_mem hp.2 y hm

variable {vars : Str → Option (Item F)} {vars' : Str → Option (Mem.Item F)} (hv : VarsStandFor h t vars vars')
  (hd : doc.isText = false) (n : Nat) {dyn : Str → Except XErr (Item F → Res F)} {dyn' : Str → Except XErr (Mem.Item F → Mem.Res F)}
  (hdyn : ∀ s, SimDyn h t (dyn s) (dyn' s))
include hr hk hv hd hdyn

mutual
  theorem sim_eval : ∀ (e : Expr F), e.LitsPlain → ∀ (x : Item F) (x' : Mem.Item F), InMem h t x x' →
      Sim h t (eval fo doc vars n dyn e x) (Mem.eval fo h k vars' n dyn' e x')
    | .lit y, hp, x, x', hx => by
      simp only [Expr.LitsPlain] at hp
      simp only [eval, Mem.eval]
      exact sim_one (lit_inMem hp)
    | .neg e, hp, x, x', hx => by
      simp only [Expr.LitsPlain] at hp
      have ih := sim_eval e hp x x' hx
      simp only [eval, Mem.eval]
      revert ih
      generalize eval fo doc vars n dyn e x = a
      generalize Mem.eval fo h k vars' n dyn' e x' = a'
      rintro ⟨h1, h2⟩
      rcases a with ⟨xs, tl⟩
      rcases a' with ⟨xs', tl'⟩
      simp only at h1 h2
      subst h2
      cases h1 with
      | nil => cases tl <;> exact sim_nil
      | cons _ _ => exact sim_nil
    | .slash l r, hp, x, x', hx => by
      simp only [Expr.LitsPlain] at hp
      simp only [eval, Mem.eval]
      exact sim_bind (sim_eval l hp.1 x x' hx) fun y y' hy => sim_eval r hp.2 _ _ (inMem_orElse fo hr hy hx)
    | .dslash l r, hp, x, x', hx => by
      simp only [Expr.LitsPlain] at hp
      have ihr := sim_eval r hp.2
      simp only [eval, Mem.eval]
      refine sim_bind (sim_eval l hp.1 x x' hx) fun y y' hy => ?_
      have hz := inMem_orElse fo hr hy hx
      cases r <;> first | exact ihr _ _ hz | exact sim_step fo hr hk n .descendantOrSelf _ hz
    | .union l r, hp, x, x', hx => by
      simp only [Expr.LitsPlain] at hp
      simp only [eval, Mem.eval]
      exact sim_union hr hk hd hx (sim_eval l hp.1 x x' hx) (sim_eval r hp.2 x x' hx)
    | .eq l r, hp, x, x', hx => by
      simp only [Expr.LitsPlain] at hp
      simp only [eval, Mem.eval]
      exact sim_eq fo hr hk (sim_eval l hp.1 x x' hx) (sim_eval r hp.2 x x' hx)
    | .ne l r, hp, x, x', hx => by
      simp only [Expr.LitsPlain] at hp
      simp only [eval, Mem.eval]
      refine sim_need (sim_eval l hp.1 x x' hx) fun a a' ha => sim_need (sim_eval r hp.2 x x' hx) fun b b' hb => ?_
      rw [inMem_pyEq fo hr ha hb]
      exact sim_one .bool
    | .rel op l r, hp, x, x', hx => by
      simp only [Expr.LitsPlain] at hp
      simp only [eval, Mem.eval]
      refine sim_need (sim_eval l hp.1 x x' hx) fun a a' ha => sim_need (sim_eval r hp.2 x x' hx) fun b b' hb => ?_
      rw [inMem_pyRel fo hr op ha hb]
      cases a.pyRel fo doc op b
      · exact sim_nil
      · exact sim_one .bool
    | .or l r, hp, x, x', hx => by
      simp only [Expr.LitsPlain] at hp
      simp only [eval, Mem.eval]
      refine sim_need (sim_eval l hp.1 x x' hx) fun a a' ha => ?_
      rw [inMem_truthy fo hr ha]
      split
      · exact sim_one ha
      · exact sim_need (sim_eval r hp.2 x x' hx) fun b b' hb => sim_one hb
    | .and l r, hp, x, x', hx => by
      simp only [Expr.LitsPlain] at hp
      simp only [eval, Mem.eval]
      refine sim_need (sim_eval l hp.1 x x' hx) fun a a' ha => ?_
      rw [inMem_truthy fo hr ha]
      split
      · exact sim_need (sim_eval r hp.2 x x' hx) fun b b' hb => sim_one hb
      · exact sim_one ha
    | .arith _ _ _, hp, x, x', hx => by
      simp only [eval, Mem.eval]
      exact sim_nil
    | .abs none, hp, x, x', hx => by
      simp only [eval, Mem.eval]
      exact sim_getRoot hr hk hx
    | .abs (some r), hp, x, x', hx => by
      simp only [Expr.LitsPlain] at hp
      simp only [eval, Mem.eval]
      refine sim_bind (sim_getRoot hr hk hx) fun y y' hy => sim_append ?_ (sim_eval r hp y y' hy)
      split
      · exact sim_one hy
      · exact sim_nil
    | .absAll r, hp, x, x', hx => by
      simp only [Expr.LitsPlain] at hp
      simp only [eval, Mem.eval]
      refine sim_bind (sim_getRoot hr hk hx) fun y y' hy => sim_append ?_ (sim_append (sim_eval r hp y y' hy) ?_)
      · split
        · exact sim_one hy
        · exact sim_nil
      · rcases inMem_below hr hk hy with ⟨h1, h2⟩ | ⟨ps, is, h1, h2, h3, h4⟩
        · rw [h1, h2]; exact sim_nil
        · rw [h1, h2]
          simp only [h3]
          exact sim_bindList (inMem_nodes h4) fun z z' hz => sim_eval r hp _ _ (inMem_orElse fo hr hz hx)
    | .step a ts, hp, x, x', hx => by
      simp only [eval, Mem.eval]
      exact sim_step fo hr hk n a ts hx
    | .test ts, hp, x, x', hx => by
      simp only [eval, Mem.eval]
      exact ⟨inMem_compute hr ts hx, rfl⟩
    | .pred l ps, hp, x, x', hx => by
      simp only [Expr.LitsPlain] at hp
      simp only [eval, Mem.eval]
      obtain ⟨h1, h2⟩ := sim_eval l hp.1 x x' hx
      rw [← h2]
      exact sim_predLoop (fun pos y y' hy => sim_preds ps hp.2 pos _ _ (inMem_orElse fo hr hy hx)) h1 1
    | .dot, hp, x, x', hx => by
      simp only [eval, Mem.eval]
      exact sim_one hx
    | .dotdot, hp, x, x', hx => by
      simp only [eval, Mem.eval]
      have hroot := sim_getRoot hr hk hx
      rcases inMem_parent hr hx with ⟨h1, h2⟩ | ⟨h1, h2⟩ | ⟨p, i, h1, h2, h3⟩ <;> rw [h1, h2]
      · exact sim_nil
      · exact hroot
      · exact sim_one (.node h3)
    | .var v, hp, x, x', hx => by
      simp only [eval, Mem.eval]
      have := hv v
      revert this
      cases vars v <;> cases vars' v <;> intro this
      · exact sim_nil
      · exact this.elim
      · exact this.elim
      · exact sim_one (inMem_iff.1 this)
    | .call f as, hp, x, x', hx => by
      simp only [Expr.LitsPlain] at hp
      simp only [eval, Mem.eval]
      exact sim_call fo hr hk hdyn hx f (litsPlain_mem hp) (sim_evalArgs as hp x x' hx)
    | .seq es, hp, x, x', hx => by
      simp only [Expr.LitsPlain] at hp
      simp only [eval, Mem.eval]
      exact sim_evalSeq es hp x x' hx
  theorem sim_preds : ∀ (ps : List (Expr F)), Expr.LitsPlainAll ps → ∀ (pos : Nat) (x : Item F) (x' : Mem.Item F), InMem h t x x' →
      Mem.evalPreds fo h k vars' n dyn' pos ps x' = evalPreds fo doc vars n dyn pos ps x
    | [], hp, pos, x, x', hx => by simp only [evalPreds, Mem.evalPreds]
    | p :: ps, hp, pos, x, x', hx => by
      simp only [Expr.LitsPlainAll] at hp
      simp only [evalPreds, Mem.evalPreds]
      rw [sim_pred fo hr pos (sim_eval p hp.1 x x' hx), sim_preds ps hp.2 pos x x' hx]
      generalize predHolds fo doc pos (eval fo doc vars n dyn p x) = w
      rcases w with b | tl
      · cases b <;> rfl
      · rfl
  theorem sim_evalArgs : ∀ (es : List (Expr F)), Expr.LitsPlainAll es → ∀ (x : Item F) (x' : Mem.Item F), InMem h t x x' →
      All2 (Sim h t) (evalArgs fo doc vars n dyn es x) (Mem.evalArgs fo h k vars' n dyn' es x')
    | [], hp, x, x', hx => by simp only [evalArgs, Mem.evalArgs]; exact .nil
    | e :: es, hp, x, x', hx => by
      simp only [Expr.LitsPlainAll] at hp
      simp only [evalArgs, Mem.evalArgs]
      exact .cons (sim_eval e hp.1 x x' hx) (sim_evalArgs es hp.2 x x' hx)
  theorem sim_evalSeq : ∀ (es : List (Expr F)), Expr.LitsPlainAll es → ∀ (x : Item F) (x' : Mem.Item F), InMem h t x x' →
      Sim h t (evalSeq fo doc vars n dyn es x) (Mem.evalSeq fo h k vars' n dyn' es x')
    | [], hp, x, x', hx => by simp only [evalSeq, Mem.evalSeq]; exact sim_nil
    | e :: es, hp, x, x', hx => by
      simp only [Expr.LitsPlainAll] at hp
      simp only [evalSeq, Mem.evalSeq]
      exact sim_append (sim_eval e hp.1 x x' hx) (sim_evalSeq es hp.2 x x' hx)
end

omit hdyn in
theorem sim_evalN {parse : Str → Except XErr (Expr F)} (hparse : ∀ s g, parse s = .ok g → g.LitsPlain) :
    ∀ (n : Nat) (e : Expr F), e.LitsPlain → ∀ (x : Item F) (x' : Mem.Item F), InMem h t x x' →
      Sim h t (evalN fo doc parse vars n e x) (Mem.evalN fo h k parse vars' n e x')
  | 0, e, hp, x, x', hx => by
    unfold evalN Mem.evalN
    refine sim_eval fo hr hk hv hd 0 (fun s => ?_) e hp x x' hx
    cases hs : parse s with
    | error er => exact .inl ⟨er, rfl, rfl⟩
    | ok g => exact .inr ⟨_, _, rfl, rfl, fun _ _ _ => sim_nil⟩
  | n + 1, e, hp, x, x', hx => by
    unfold evalN Mem.evalN
    refine sim_eval fo hr hk hv hd (n + 1) (fun s => ?_) e hp x x' hx
    cases hs : parse s with
    | error er => exact .inl ⟨er, rfl, rfl⟩
    | ok g => exact .inr ⟨_, _, rfl, rfl, fun y y' hy => sim_evalN hparse n g (hparse s g hs) y y' hy⟩

end

/-! ### what the parser makes has plain literals -/

theorem litsPlainAll_append {es es' : List (Expr F)} (h : Expr.LitsPlainAll es) (h' : Expr.LitsPlainAll es') :
    Expr.LitsPlainAll (es ++ es') := by
  induction es with
  | nil => exact h'
  | cons e es ih =>
    simp only [Expr.LitsPlainAll, List.cons_append] at h ⊢
    exact ⟨h.1, ih h.2⟩

theorem step_litsPlain {b : Bool} {w : List (X.Tok F)} {e : Expr F} (h : X.GStep b w e) : e.LitsPlain := by
  cases h <;> simp only [Expr.LitsPlain]

theorem rel_litsPlain {b : Bool} {w : List (X.Tok F)} {e : Expr F} : X.GRel b w e → e.LitsPlain
  | .step h => step_litsPlain h
  | .slash h h' => by simp only [Expr.LitsPlain]; exact ⟨rel_litsPlain h, step_litsPlain h'⟩
  | .dslash h h' => by simp only [Expr.LitsPlain]; exact ⟨rel_litsPlain h, step_litsPlain h'⟩

theorem called_litsPlain {n : Str} {as : List (Expr F)} (h : Expr.LitsPlainAll as) : (X.called n as).LitsPlain := by
  unfold X.called
  split
  · simp only [Expr.LitsPlain]
  · split
    · simp only [Expr.LitsPlain]
    · simp only [Expr.LitsPlain]; exact h

theorem meaning_litsPlain {l r e : Expr F} {o : X.Tok F} (h : X.meaning l o r = some e) (hl : l.LitsPlain) (hr : r.LitsPlain) : e.LitsPlain := by
  unfold X.meaning at h
  split at h <;> first | (cases h; done) | skip
  all_goals
    cases h
    first
    | (simp only [Expr.LitsPlain]; exact ⟨hl, hr⟩)
    | (split <;> (simp only [Expr.LitsPlain]; exact ⟨hl, hr⟩))

mutual
  theorem args_litsPlain : ∀ {w : List (X.Tok F)} {es : List (Expr F)}, X.GArgs w es → Expr.LitsPlainAll es
    | _, _, .none => by simp only [Expr.LitsPlainAll]
    | _, _, .some h => list_litsPlain h
  theorem list_litsPlain : ∀ {w : List (X.Tok F)} {es : List (Expr F)}, X.GList w es → Expr.LitsPlainAll es
    | _, _, .one h => by simp only [Expr.LitsPlainAll]; exact ⟨expr_litsPlain h, trivial⟩
    | _, _, .more h h' => litsPlainAll_append (list_litsPlain h) (by simp only [Expr.LitsPlainAll]; exact ⟨expr_litsPlain h', trivial⟩)
  theorem preds_litsPlain : ∀ {w : List (X.Tok F)} {es : List (Expr F)}, X.GPreds w es → Expr.LitsPlainAll es
    | _, _, .one h => by simp only [Expr.LitsPlainAll]; exact ⟨expr_litsPlain h, trivial⟩
    | _, _, .more h h' => litsPlainAll_append (preds_litsPlain h) (by simp only [Expr.LitsPlainAll]; exact ⟨expr_litsPlain h', trivial⟩)
  theorem prim_litsPlain : ∀ {k : X.Last} {w : List (X.Tok F)} {e : Expr F}, X.GPrim k w e → e.LitsPlain
    | _, _, _, .literal => by simp only [Expr.LitsPlain, Item.Atomic]
    | _, _, _, .float => by simp only [Expr.LitsPlain, Item.Atomic]
    | _, _, _, .integer => by simp only [Expr.LitsPlain, Item.Atomic]
    | _, _, _, .var _ => by simp only [Expr.LitsPlain]
    | _, _, _, .call _ h => called_litsPlain (args_litsPlain h)
    | _, _, _, .nil => by simp only [Expr.LitsPlain, Expr.LitsPlainAll]
    | _, _, _, .seq h => by simp only [Expr.LitsPlain]; exact list_litsPlain h
    | _, _, _, .root => by simp only [Expr.LitsPlain]
    | _, _, _, .abs h => by simp only [Expr.LitsPlain]; exact rel_litsPlain h
    | _, _, _, .absAll h => by simp only [Expr.LitsPlain]; exact rel_litsPlain h
    | _, _, _, .rel h => rel_litsPlain h
  theorem expr_litsPlain : ∀ {l r : Nat} {k : X.Last} {w : List (X.Tok F)} {e : Expr F}, X.GExpr l r k w e → e.LitsPlain
    | _, _, _, _, _, .prim h => prim_litsPlain h
    | _, _, _, _, _, .neg h _ => by simp only [Expr.LitsPlain]; exact expr_litsPlain h
    | _, _, _, _, _, .binary h _ h' _ _ _ hm => meaning_litsPlain hm (expr_litsPlain h) (expr_litsPlain h')
    | _, _, _, _, _, .slash h _ h' => by simp only [Expr.LitsPlain]; exact ⟨expr_litsPlain h, rel_litsPlain h'⟩
    | _, _, _, _, _, .dslash h _ h' => by simp only [Expr.LitsPlain]; exact ⟨expr_litsPlain h, rel_litsPlain h'⟩
    | _, _, _, _, _, .pred h _ h' => by simp only [Expr.LitsPlain]; exact ⟨expr_litsPlain h, preds_litsPlain h'⟩
end

end Amara
