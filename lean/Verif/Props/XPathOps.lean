import Verif.Props.XPath
/-
C51, C52, C55: union, equality and the string functions of MicroXPath.
-/
namespace Amara

variable {F : Type}

/-! ### C51 -/

theorem docLtB_iff : ∀ p q : Path, docLtB p q = true ↔ docLt p q := by
  intro p
  induction p with
  | nil => intro q; cases q <;> simp [docLtB, docLt]
  | cons i p ih => intro q; cases q <;> simp [docLtB, docLt, ih]

theorem docLt_trans : ∀ {p q r : Path}, docLt p q → docLt q r → docLt p r := by
  intro p
  induction p with
  | nil =>
    intro q r h1 h2
    cases q with
    | nil => exact h1.elim
    | cons j q => cases r with
      | nil => exact h2.elim
      | cons k r => trivial
  | cons i p ih =>
    intro q r h1 h2
    cases q with
    | nil => exact h1.elim
    | cons j q =>
      cases r with
      | nil => exact h2.elim
      | cons k r =>
        simp only [docLt] at *
        rcases h1 with h1 | ⟨rfl, h1⟩
        · rcases h2 with h2 | ⟨rfl, h2⟩
          · exact .inl (by omega)
          · exact .inl h1
        · rcases h2 with h2 | ⟨rfl, h2⟩
          · exact .inl h2
          · exact .inr ⟨rfl, ih h1 h2⟩

theorem docLt_total : ∀ p q : Path, docLt p q ∨ p = q ∨ docLt q p := by
  intro p
  induction p with
  | nil => intro q; cases q <;> simp [docLt]
  | cons i p ih =>
    intro q
    cases q with
    | nil => exact .inr (.inr trivial)
    | cons j q =>
      rcases Nat.lt_trichotomy i j with h | h | h
      · exact .inl (.inl h)
      · subst h
        rcases ih q with h | h | h
        · exact .inl (.inr ⟨rfl, h⟩)
        · exact .inr (.inl (by rw [h]))
        · exact .inr (.inr (.inr ⟨rfl, h⟩))
      · exact .inr (.inr (.inl h))

/-- Keys with the items they belong to. -/
def keyed (ps : List Path) : List (Option Path × Item F) := ps.map fun p => (some p, .node p)

theorem insertByKey_keyed (p : Path) (ps : List Path) (h : ps.Pairwise (fun a b => ¬ docLt b a)) :
    ∃ qs : List Path, insertByKey (F := F) (some p) (.node p) (keyed ps) = keyed qs ∧ qs.Perm (p :: ps) ∧
      qs.Pairwise (fun a b => ¬ docLt b a) := by
  induction ps with
  | nil => exact ⟨[p], rfl, .refl _, List.pairwise_singleton _ _⟩
  | cons q ps ih =>
    rw [List.pairwise_cons] at h
    by_cases hk : docLt p q
    · refine ⟨p :: q :: ps, ?_, .refl _, ?_⟩
      · have : keyLe (some q) (some p) = false := by simp [keyLe, (docLtB_iff p q).2 hk]
        simp [keyed, insertByKey, this]
      · refine List.pairwise_cons.2 ⟨?_, List.pairwise_cons.2 h⟩
        intro b hb hlt
        rcases List.mem_cons.1 hb with rfl | hb
        · exact docLt_irrefl _ (docLt_trans hk hlt)
        · exact h.1 b hb (docLt_trans hlt hk)
    · obtain ⟨qs, h1, h2, h3⟩ := ih h.2
      refine ⟨q :: qs, ?_, ?_, ?_⟩
      · have : keyLe (some q) (some p) = true := by
          simp only [keyLe]
          cases hb : docLtB p q with
          | false => rfl
          | true => exact absurd ((docLtB_iff p q).1 hb) hk
        have h1' := h1
        simp only [keyed] at h1' ⊢
        rw [List.map_cons, insertByKey, if_pos this, h1']
        rfl
      · exact (h2.cons q).trans (.swap p q ps)
      · refine List.pairwise_cons.2 ⟨?_, h3⟩
        intro b hb hlt
        rcases List.mem_cons.1 ((h2.mem_iff).1 hb) with rfl | hb
        · exact hk hlt
        · exact h.1 b hb hlt

theorem sort_keyed_aux (ps : List Path) : ∀ acc : List Path, acc.Pairwise (fun a b => ¬ docLt b a) →
    ∃ qs : List Path, (keyed ps).foldl (fun acc kx => insertByKey kx.1 kx.2 acc) (keyed (F := F) acc) = keyed qs ∧
      qs.Perm (acc ++ ps) ∧ qs.Pairwise (fun a b => ¬ docLt b a) := by
  induction ps with
  | nil => intro acc h; exact ⟨acc, rfl, by simp, h⟩
  | cons p ps ih =>
    intro acc h
    obtain ⟨qs, h1, h2, h3⟩ := insertByKey_keyed (F := F) p acc h
    obtain ⟨rs, h4, h5, h6⟩ := ih qs h3
    refine ⟨rs, ?_, ?_, h6⟩
    · simp only [keyed] at h1 h4 ⊢
      rw [List.map_cons, List.foldl_cons]
      simp only
      rw [h1]; exact h4
    · refine h5.trans ?_
      refine (h2.append_right ps).trans ?_
      exact (List.perm_middle (a := p) (l₁ := acc) (l₂ := ps)).symm

theorem sort_keyed (ps : List Path) :
    ∃ qs : List Path, sortByKey (F := F) (keyed ps) = keyed qs ∧ qs.Perm ps ∧ qs.Pairwise (fun a b => ¬ docLt b a) := by
  obtain ⟨qs, h1, h2, h3⟩ := sort_keyed_aux (F := F) ps [] .nil
  exact ⟨qs, h1, by simpa using h2, h3⟩

theorem mapM_keys (doc : Node) (b : Bool) (ps : List Path) (h : ∀ p ∈ ps, doc.ElemAt p) :
    ((ps.map (Item.node : Path → Item F)).mapM fun y => (y.orderKey doc b).map fun k => (k, y)) = some (keyed ps) := by
  induction ps with
  | nil => rfl
  | cons p ps ih =>
    obtain ⟨m, as, cs, hp⟩ := h p (by simp)
    rw [List.map_cons, List.mapM_cons, ih (fun q hq => h q (by simp [hq]))]
    simp [Item.orderKey, hp, keyed]

/-- C51: a union of results that are elements yields every element of either side in document order (those in
both sides twice, `C51_full_statement_is_false`); each once if the sides have no element in common. -/
theorem C51_union_partial (E : Env F) (n : Nat) (l r : Expr F) (x : Item F) (ps qs : List Path)
    (hx : x.isNode = true) (hl : E.Yields n l x (ps.map .node)) (hr : E.Yields n r x (qs.map .node))
    (hp : ∀ p ∈ ps, E.doc.ElemAt p) (hq : ∀ p ∈ qs, E.doc.ElemAt p) :
    ∃ zs : List Path, E.Yields n (.union l r) x (zs.map .node) ∧ zs.Perm (ps ++ qs) ∧
      zs.Pairwise (fun a b => ¬ docLt b a) ∧
      (ps.Nodup → qs.Nodup → (∀ p ∈ ps, p ∉ qs) → zs.Pairwise docLt) := by
  obtain ⟨zs, h1, h2, h3⟩ := sort_keyed (F := F) (ps ++ qs)
  refine ⟨zs, ?_, h2, h3, ?_⟩
  · rw [Env.Yields, run_union, hl, hr, unionRes, if_pos hx]
    have key := fun b => mapM_keys (F := F) E.doc b (ps ++ qs) (by
      intro p h
      rcases List.mem_append.1 h with h | h
      · exact hp p h
      · exact hq p h)
    simp only [← List.map_append, key, h1]
    simp [keyed, Function.comp_def]
  · intro n1 n2 n3
    have hn : zs.Nodup := (h2.nodup_iff).2 (List.nodup_append.2 ⟨n1, n2, fun a ha b hb hab => n3 a ha (hab ▸ hb)⟩)
    refine List.Pairwise.imp ?_ (List.Pairwise.and h3 hn)
    rintro a b ⟨h4, h5⟩
    rcases docLt_total a b with h | h | h
    · exact h
    · exact absurd h h5
    · exact absurd h h4

/-- Document order of the root and of elements. -/
def itemBefore : Item F → Item F → Prop
  | .root, .node _ => True
  | .node p, .node q => docLt p q
  | _, _ => False

/-- What has a place in the order when a union is asked for at `x`: the elements, and the root if `x` is the root. -/
def Env.Placed (E : Env F) (x : Item F) : Item F → Prop
  | .root => x = .root
  | .node p => E.doc.ElemAt p
  | _ => False

theorem keyLe_total (a b : Option Path) : keyLe a b = true ∨ keyLe b a = true := by
  cases a with
  | none => exact .inl rfl
  | some p => cases b with
    | none => exact .inr rfl
    | some q =>
      simp only [keyLe, Bool.not_eq_true']
      cases h : docLtB q p with
      | false => exact .inl rfl
      | true =>
        refine .inr ?_
        cases h' : docLtB p q with
        | false => rfl
        | true => exact (docLt_irrefl _ (docLt_trans ((docLtB_iff _ _).1 h) ((docLtB_iff _ _).1 h'))).elim

theorem keyLe_trans {a b c : Option Path} (h1 : keyLe a b = true) (h2 : keyLe b c = true) : keyLe a c = true := by
  cases a with
  | none => rfl
  | some p => cases b with
    | none => cases h1
    | some q => cases c with
      | none => cases h2
      | some r =>
        simp only [keyLe, Bool.not_eq_true'] at *
        cases h : docLtB r p with
        | false => rfl
        | true =>
          have h3 := (docLtB_iff _ _).1 h
          rcases docLt_total p q with hpq | hpq | hpq
          · have := (docLtB_iff _ _).2 (docLt_trans h3 hpq)
            rw [this] at h2; cases h2
          · subst hpq; rw [h] at h2; cases h2
          · rw [(docLtB_iff _ _).2 hpq] at h1; cases h1

theorem insertByKey_sorted (k : Option Path) (x : Item F) (l : List (Option Path × Item F))
    (h : l.Pairwise (fun a b => keyLe a.1 b.1 = true)) :
    (insertByKey k x l).Perm ((k, x) :: l) ∧ (insertByKey k x l).Pairwise (fun a b => keyLe a.1 b.1 = true) := by
  induction l with
  | nil => exact ⟨.refl _, List.pairwise_singleton _ _⟩
  | cons y l ih =>
    obtain ⟨k', y⟩ := y
    have hc := List.pairwise_cons.1 h
    rw [insertByKey]
    by_cases hk : keyLe k' k = true
    · rw [if_pos hk]
      obtain ⟨h1, h2⟩ := ih hc.2
      refine ⟨(h1.cons _).trans (.swap _ _ _), List.pairwise_cons.2 ⟨?_, h2⟩⟩
      intro b hb
      rcases List.mem_cons.1 ((h1.mem_iff).1 hb) with rfl | hb
      · exact hk
      · exact hc.1 b hb
    · rw [if_neg hk]
      have hk' : keyLe k k' = true := (keyLe_total k k').resolve_right hk
      refine ⟨.refl _, List.pairwise_cons.2 ⟨?_, h⟩⟩
      intro b hb
      rcases List.mem_cons.1 hb with rfl | hb
      · exact hk'
      · exact keyLe_trans hk' (hc.1 b hb)

theorem sortByKey_sorted (l : List (Option Path × Item F)) :
    (sortByKey l).Perm l ∧ (sortByKey l).Pairwise (fun a b => keyLe a.1 b.1 = true) := by
  have aux : ∀ (l acc : List (Option Path × Item F)), acc.Pairwise (fun a b => keyLe a.1 b.1 = true) →
      (l.foldl (fun acc kx => insertByKey kx.1 kx.2 acc) acc).Perm (acc ++ l) ∧
      (l.foldl (fun acc kx => insertByKey kx.1 kx.2 acc) acc).Pairwise (fun a b => keyLe a.1 b.1 = true) := by
    intro l
    induction l with
    | nil => intro acc h; exact ⟨by simp, h⟩
    | cons x l ih =>
      intro acc h
      obtain ⟨h1, h2⟩ := insertByKey_sorted x.1 x.2 acc h
      obtain ⟨h3, h4⟩ := ih _ h2
      refine ⟨h3.trans ((h1.append_right l).trans ?_), h4⟩
      exact (List.perm_middle (a := x) (l₁ := acc) (l₂ := l)).symm
  simpa [sortByKey] using aux l [] .nil

theorem mapM_some_spec {α β : Type} (f : α → Option β) : ∀ l : List α,
    (∀ x ∈ l, ∃ b, f x = some b) → ∃ bs, l.mapM f = some bs ∧ bs.map some = l.map f := by
  intro l
  induction l with
  | nil => intro _; exact ⟨[], rfl, rfl⟩
  | cons x l ih =>
    intro h
    obtain ⟨b, hb⟩ := h x (by simp)
    obtain ⟨bs, h1, h2⟩ := ih (fun y hy => h y (by simp [hy]))
    exact ⟨b :: bs, by rw [List.mapM_cons, hb, h1]; rfl, by rw [List.map_cons, List.map_cons, h2, hb]⟩

theorem mapM_none_spec {α β : Type} (f : α → Option β) : ∀ l : List α,
    (∃ x ∈ l, f x = none) → l.mapM f = none := by
  intro l
  induction l with
  | nil => rintro ⟨x, hx, _⟩; cases hx
  | cons y l ih =>
    rintro ⟨x, hx, hn⟩
    rw [List.mapM_cons]
    rcases List.mem_cons.1 hx with rfl | hx
    · rw [hn]; rfl
    · rw [ih ⟨x, hx, hn⟩]
      cases f y <;> rfl

theorem orderKey_placed (E : Env F) (x y : Item F) :
    (E.Placed x y → ∃ k, y.orderKey E.doc x.isRoot = some k ∧
      ((y = .root ∧ k = none) ∨ ∃ p, y = .node p ∧ k = some p)) ∧
    (¬ E.Placed x y → y.orderKey E.doc x.isRoot = none) := by
  cases y with
  | root =>
    have hx : x.isRoot = true ↔ x = .root := by cases x <;> simp [Item.isRoot]
    constructor
    · intro h
      exact ⟨none, by rw [Item.orderKey, if_pos (hx.2 h)], .inl ⟨rfl, rfl⟩⟩
    · intro h
      rw [Item.orderKey, if_neg (fun hb => h (hx.1 hb))]
  | node p =>
    constructor
    · rintro ⟨m, as, cs, hp⟩
      exact ⟨some p, by rw [Item.orderKey]; simp [hp], .inr ⟨p, rfl, rfl⟩⟩
    · intro h
      rw [Item.orderKey]
      cases hp : E.doc.at? p with
      | none => rfl
      | some z => cases z with
        | text s => rfl
        | elem m as cs => exact (h ⟨m, as, cs, hp⟩).elim
  | _ => exact ⟨fun h => h.elim, fun _ => rfl⟩

/-- C51: what a union does at any node whose two sides can both be evaluated: if everything they yield has a place in
the order, it is yielded in document order, the root first, nothing lost and nothing added; otherwise (there are text
nodes, attributes, strings, numbers or booleans, or the root while the union is not asked for at the root) it raises
AttributeError. -/
theorem C51_union_exactly (E : Env F) (n : Nat) (l r : Expr F) (x : Item F) (xs ys : List (Item F))
    (hx : x.isNode = true) (hl : E.Yields n l x xs) (hr : E.Yields n r x ys) :
    ((∀ y ∈ xs ++ ys, E.Placed x y) → ∃ zs, E.Yields n (.union l r) x zs ∧ zs.Perm (xs ++ ys) ∧
      zs.Pairwise (fun a b => ¬ itemBefore b a)) ∧
    ((∃ y ∈ xs ++ ys, ¬ E.Placed x y) → E.run n (.union l r) x = ⟨[], .err .attribute⟩) := by
  constructor
  · intro h
    have hm := mapM_some_spec (fun y : Item F => (y.orderKey E.doc x.isRoot).map fun k => (k, y)) (xs ++ ys) (by
      intro y hy
      obtain ⟨k, hk, _⟩ := (orderKey_placed E x y).1 (h y hy)
      exact ⟨(k, y), by rw [hk]; rfl⟩)
    obtain ⟨ks, h1, h2⟩ := hm
    obtain ⟨h3, h4⟩ := sortByKey_sorted ks
    have hks : ks.map (·.2) = xs ++ ys ∧ ∀ ky ∈ ks, E.Placed x ky.2 ∧ ky.2.orderKey E.doc x.isRoot = some ky.1 := by
      have : ∀ (zs : List (Item F)) (ks : List (Option Path × Item F)), (∀ y ∈ zs, E.Placed x y) →
          ks.map some = zs.map (fun y : Item F => (y.orderKey E.doc x.isRoot).map fun k => (k, y)) →
          ks.map (·.2) = zs ∧ ∀ ky ∈ ks, E.Placed x ky.2 ∧ ky.2.orderKey E.doc x.isRoot = some ky.1 := by
        intro zs
        induction zs with
        | nil =>
          intro ks _ he
          cases ks with
          | nil => exact ⟨rfl, fun _ h => by cases h⟩
          | cons k ks => cases he
        | cons z zs ih =>
          intro ks hz he
          cases ks with
          | nil => cases he
          | cons k ks =>
            rw [List.map_cons, List.map_cons, List.cons.injEq] at he
            obtain ⟨i1, i2⟩ := ih ks (fun y hy => hz y (by simp [hy])) he.2
            obtain ⟨k0, hk0, _⟩ := (orderKey_placed E x z).1 (hz z (by simp))
            have hk : k = (k0, z) := by
              have := he.1
              rw [hk0] at this
              exact Option.some.inj this
            subst hk
            refine ⟨by rw [List.map_cons, i1], ?_⟩
            intro ky hky
            rcases List.mem_cons.1 hky with rfl | hky
            · exact ⟨hz _ (by simp), hk0⟩
            · exact i2 ky hky
      exact this _ _ h h2
    refine ⟨(sortByKey ks).map (·.2), ?_, ?_, ?_⟩
    · rw [Env.Yields, run_union, hl, hr, unionRes, if_pos hx]
      simp only [h1]
    · have := h3.map (·.2)
      rwa [hks.1] at this
    · rw [List.pairwise_map]
      refine List.Pairwise.imp_of_mem ?_ h4
      rintro ⟨k1, a⟩ ⟨k2, b⟩ ha hb hle hlt
      obtain ⟨pa, ka⟩ := hks.2 _ ((h3.mem_iff).1 ha)
      obtain ⟨pb, kb⟩ := hks.2 _ ((h3.mem_iff).1 hb)
      obtain ⟨k1', e1, c1⟩ := (orderKey_placed E x a).1 pa
      obtain ⟨k2', e2, c2⟩ := (orderKey_placed E x b).1 pb
      rw [e1] at ka; rw [e2] at kb
      cases Option.some.inj ka; cases Option.some.inj kb
      simp only at hle hlt
      rcases c1 with ⟨rfl, rfl⟩ | ⟨p, rfl, rfl⟩ <;> rcases c2 with ⟨rfl, rfl⟩ | ⟨q, rfl, rfl⟩
      · exact hlt
      · exact hlt
      · cases hle
      · have : docLtB q p = true := (docLtB_iff _ _).2 hlt
        simp [keyLe, this] at hle
  · rintro ⟨y, hy, hn⟩
    have hm := mapM_none_spec (fun y : Item F => (y.orderKey E.doc x.isRoot).map fun k => (k, y)) (xs ++ ys)
      ⟨y, hy, by rw [(orderKey_placed E x y).2 hn]; rfl⟩
    rw [run_union, hl, hr, unionRes, if_pos hx]
    simp only [hm]
    rfl

/-- `* | /`: the root has a place in the order at the root, and none at an element. -/
example : exEnv.Yields 0 (.union (.step .child .star) (.abs none)) .root [.root, .node []] ∧
    exEnv.run 0 (.union (.step .child .star) (.abs none)) (.node []) = ⟨[], .err .attribute⟩ := by
  unfold Env.Yields; decide

/-- C51 as stated is false: an element on both sides is yielded twice; and a union with text or attribute nodes
raises AttributeError. -/
theorem C51_full_statement_is_false :
    exEnv.Yields 0 (.union (.step .child (.name ['b'])) (.step .child .star)) (.node [])
      [.node [1], .node [1], .node [2]] ∧
    exEnv.run 0 (.union (.step .child .text) (.step .child .star)) (.node []) = ⟨[], .err .attribute⟩ := by
  unfold Env.Yields; decide

example : exEnv.Yields 0 (.union (.step .child (.name ['c'])) (.step .child (.name ['b']))) (.node [])
    [.node [1], .node [2]] := by unfold Env.Yields; decide

/-! ### string values -/

theorem toStr_strVal (E : Env F) (y : Item F) : y.toStr E.fo E.doc = E.strVal y := by
  cases y with
  | node p =>
    simp only [Item.toStr, Item.strval, Env.strVal]
    cases E.doc.at? p with
    | none => rfl
    | some z => exact (C18_string_value z).1
  | bool b => cases b <;> rfl
  | _ => rfl

/-! ### C52 -/

/-- A node or a string. -/
def Item.Stringy : Item F → Prop
  | .root | .node _ | .attr _ _ _ | .str _ => True
  | _ => False

theorem strval_strVal (E : Env F) (y : Item F) (h : y.isNode = true) : y.strval E.doc = E.strVal y := by
  cases y with
  | node p =>
    simp only [Item.strval, Env.strVal]
    cases E.doc.at? p with
    | none => rfl
    | some z => exact (C18_string_value z).1
  | root => rfl
  | attr p k v => rfl
  | _ => cases h

theorem atom_pyEq (E : Env F) (y : Item F) (hy : y.Stringy) (s : Str) :
    (y.atom E.doc).pyEq E.fo E.doc (.str s) = true ↔ E.strVal y = s := by
  have hs : ∀ u : Str, (Item.str u : Item F).pyEq E.fo E.doc (.str s) = true ↔ u = s := by
    intro u; simp [Item.pyEq, Item.num, Item.strOf]
  cases y with
  | str u => exact hs u
  | root => rw [Item.atom, if_pos (by rfl), hs, strval_strVal E _ rfl]
  | node p => rw [Item.atom, if_pos (by rfl), hs, strval_strVal E _ rfl]
  | attr p k v => rw [Item.atom, if_pos (by rfl), hs, strval_strVal E _ rfl]
  | _ => exact hy.elim

/-- C52: `expr = 'literal'` is decided by the first item of `expr` alone: true iff it has that string value. -/
theorem C52_only_the_first_item (E : Env F) (n : Nat) (e : Expr F) (x y : Item F) (ys : List (Item F)) (s : Str)
    (h : E.Yields n e x (y :: ys)) (hy : y.Stringy) :
    ∃ b : Bool, E.Yields n (.eq e (.lit (.str s))) x [.bool b] ∧ (b = true ↔ E.strVal y = s) := by
  refine ⟨(y.atom E.doc).pyEq E.fo E.doc (.str s), ?_, atom_pyEq E y hy s⟩
  rw [Env.Yields] at h ⊢
  rw [run_eq, h, run_lit]
  simp only [eqRes, eqLoop, Item.isNode, Bool.false_eq_true, if_false]
  cases (y.atom E.doc).pyEq E.fo E.doc (.str s) <;> simp [Res.one]

/-- C52: for an `expr` of at most one item, a node or a string, `expr = 'literal'` is true iff some item has that
string value. -/
theorem C52_equality_partial (E : Env F) (n : Nat) (e : Expr F) (x : Item F) (xs : List (Item F)) (s : Str)
    (h : E.Yields n e x xs) (h1 : xs.length ≤ 1) (hy : ∀ y ∈ xs, y.Stringy) :
    ∃ b : Bool, E.Yields n (.eq e (.lit (.str s))) x [.bool b] ∧ (b = true ↔ ∃ y ∈ xs, E.strVal y = s) := by
  cases xs with
  | nil =>
    refine ⟨false, ?_, by simp⟩
    rw [Env.Yields] at h ⊢
    rw [run_eq, h]
    rfl
  | cons y ys =>
    cases ys with
    | cons z ys => simp at h1
    | nil =>
      obtain ⟨b, hb1, hb2⟩ := C52_only_the_first_item E n e x y [] s h (hy y (by simp))
      exact ⟨b, hb1, by rw [hb2]; simp⟩

/-- C52 as stated is false: in `<a>x<b/><c i="1"><b>y</b></c></a>`, `child::* = 'y'` is false at `a` although the
second child has that value. -/
theorem C52_full_statement_is_false :
    exEnv.Yields 0 (.step .child .star) (.node []) [.node [1], .node [2]] ∧ exEnv.strVal (.node [2]) = ['y'] ∧
    exEnv.Yields 0 (.eq (.step .child .star) (.lit (.str ['y']))) (.node []) [.bool false] := by
  unfold Env.Yields; decide

/-- A node on the right side raises: `'y' = c`. -/
theorem C52_node_on_the_right_raises (E : Env F) (n : Nat) (l r : Expr F) (x y z : Item F) (ys zs : List (Item F))
    (hl : E.Yields n l x (y :: ys)) (hr : E.Yields n r x (z :: zs)) (hz : z.isNode = true) :
    E.run n (.eq l r) x = ⟨[], .err .attribute⟩ := by
  rw [Env.Yields] at hl hr
  rw [run_eq, hl, hr]
  simp [eqRes, eqLoop, hz]

/-- The value the first item of the left side is compared by: the string value of a node, otherwise the item. -/
def Env.valueOf (E : Env F) (i : Item F) : Item F := if i.isNode then .str (E.strVal i) else i

theorem atom_valueOf (E : Env F) (i : Item F) : i.atom E.doc = E.valueOf i := by
  rw [Item.atom, Env.valueOf]
  by_cases h : i.isNode = true
  · rw [if_pos h, if_pos h, strval_strVal E i h]
  · rw [if_neg h, if_neg h]

theorem eqLoop_pass (E : Env F) (i : Item F) (t : Tail) (rest : List (Item F)) : ∀ pre : List (Item F),
    (∀ j ∈ pre, j.isNode = false ∧ i.pyEq E.fo E.doc j = false) →
    eqLoop E.fo E.doc i t (pre ++ rest) = eqLoop E.fo E.doc i t rest := by
  intro pre
  induction pre with
  | nil => intro _; rfl
  | cons j pre ih =>
    intro h
    obtain ⟨h1, h2⟩ := h j (by simp)
    rw [List.cons_append, eqLoop, h1, h2]
    simpa using ih fun k hk => h k (by simp [hk])

/-- C52: what `l = r` does in every case, whether or not the sides end with an error.  With nothing on the left it is
false, or the error of the left side.  Otherwise the right side is searched for the value of the first left item: if it
is found before any node there, the result is true; if a node comes first, AttributeError; if the right side ends
without either, its error, or else the error of the left side, or else false. -/
theorem C52_exactly (E : Env F) (n : Nat) (l r : Expr F) (x : Item F) :
    ((E.run n l x).items = [] → (E.run n l x).tail = .done → E.Yields n (.eq l r) x [.bool false]) ∧
    ((E.run n l x).items = [] → (E.run n l x).tail ≠ .done → E.run n (.eq l r) x = ⟨[], (E.run n l x).tail⟩) ∧
    (∀ i is pre j rest, (E.run n l x).items = i :: is → (E.run n r x).items = pre ++ j :: rest →
      (∀ k ∈ pre, k.isNode = false ∧ (E.valueOf i).pyEq E.fo E.doc k = false) →
      (j.isNode = true → E.run n (.eq l r) x = ⟨[], .err .attribute⟩) ∧
      (j.isNode = false → (E.valueOf i).pyEq E.fo E.doc j = true → E.Yields n (.eq l r) x [.bool true])) ∧
    (∀ i is, (E.run n l x).items = i :: is →
      (∀ k ∈ (E.run n r x).items, k.isNode = false ∧ (E.valueOf i).pyEq E.fo E.doc k = false) →
      ((E.run n r x).tail ≠ .done → E.run n (.eq l r) x = ⟨[], (E.run n r x).tail⟩) ∧
      ((E.run n r x).tail = .done → (E.run n l x).tail ≠ .done → E.run n (.eq l r) x = ⟨[], (E.run n l x).tail⟩) ∧
      ((E.run n r x).tail = .done → (E.run n l x).tail = .done → E.Yields n (.eq l r) x [.bool false])) := by
  unfold Env.Yields
  rw [run_eq]
  refine ⟨?_, ?_, ?_, ?_⟩
  · intro h1 h2
    rw [eqRes, h1]; simp [h2, Res.one]
  · intro h1 h2
    rw [eqRes, h1]; simp [h2]
  · intro i is pre j rest h1 h2 h3
    have key := eqLoop_pass E (E.valueOf i) (E.run n r x).tail (j :: rest) pre h3
    constructor
    · intro hj
      rw [eqRes, h1, h2]
      simp only [atom_valueOf, key, eqLoop, hj, if_true]
    · intro hj he
      rw [eqRes, h1, h2]
      simp only [atom_valueOf, key, eqLoop, hj, he, Bool.false_eq_true, if_false, if_true]
      rfl
  · intro i is h1 h3
    have key := eqLoop_pass E (E.valueOf i) (E.run n r x).tail [] _ h3
    rw [List.append_nil, eqLoop] at key
    rw [eqRes, h1]
    simp only [atom_valueOf, key]
    refine ⟨?_, ?_, ?_⟩
    · intro ht
      cases h : (E.run n r x).tail with
      | done => exact (ht h).elim
      | _ => rfl
    · intro h4 h5
      rw [h4]; simp [h5]
    · intro h4 h5
      rw [h4]; simp [h5, Res.one]

/-- An error on the left with nothing before it, on the left after an item that is not found, and on the right: `1 + 1`
is not implemented. -/
example : exEnv.run 0 (.eq (.arith .add (.lit (.int 1)) (.lit (.int 1))) (.lit (.int 2))) (.node []) =
      ⟨[], .err .notImplemented⟩ ∧
    exEnv.run 0 (.eq (.lit (.int 2)) (.arith .add (.lit (.int 1)) (.lit (.int 1)))) (.node []) =
      ⟨[], .err .notImplemented⟩ := by decide

example : exEnv.Yields 0 (.eq (.step .child (.name ['c'])) (.lit (.str ['y']))) (.node []) [.bool true] := by
  unfold Env.Yields; decide

/-! ### C55 -/

theorem firstStr_strArg {E : Env F} {n : Nat} {e : Expr F} {x : Item F} {s : Str} (h : E.FirstStr n e x s)
    (f : Str → Res F) : strArg E.fo E.doc (E.run n e x) f = f s := by
  obtain ⟨y, h1, h2⟩ := h
  cases hi : (E.run n e x).items with
  | nil => rw [hi] at h1; cases h1
  | cons z zs =>
    rw [hi] at h1
    simp only [List.head?_cons, Option.some.injEq] at h1
    subst h1
    rw [strArg, Res.orDefault, Res.first, hi]
    simp only [toStr_strVal, h2]

theorem isPrefixOf_append {s t : Str} : t.isPrefixOf s = true ↔ ∃ u, s = t ++ u := by
  rw [List.isPrefixOf_iff_prefix]
  constructor
  · rintro ⟨u, h⟩; exact ⟨u, h.symm⟩
  · rintro ⟨u, h⟩; exact ⟨u, h.symm⟩

theorem pyContains_iff (s t : Str) : pyContains s t = true ↔ ∃ u v, s = u ++ t ++ v := by
  induction s with
  | nil =>
    rw [pyContains]
    constructor
    · intro h
      exact ⟨[], [], by simpa using h⟩
    · rintro ⟨u, v, h⟩
      cases u <;> cases t <;> cases v <;> simp_all
  | cons c s ih =>
    rw [pyContains, Bool.or_eq_true, ih, isPrefixOf_append]
    constructor
    · rintro (⟨u, h⟩ | ⟨u, v, h⟩)
      · exact ⟨[], u, by simpa using h⟩
      · exact ⟨c :: u, v, by simp [h]⟩
    · rintro ⟨u, v, h⟩
      cases u with
      | nil => exact .inl ⟨v, by simpa using h⟩
      | cons d u => simp only [List.cons_append, List.cons.injEq] at h; exact .inr ⟨u, v, by simpa using h.2⟩

/-- `u` is what comes before the first occurrence of `t` in `s`, and `v` what comes after it. -/
def FirstSplit (s t u v : Str) : Prop := s = u ++ t ++ v ∧ ∀ u' v', s = u' ++ t ++ v' → u.length ≤ u'.length

theorem pyPartition_split {s t : Str} (h : pyContains s t = true) (ht : t ≠ []) :
    FirstSplit s t (pyPartition t s).1 (pyPartition t s).2 := by
  induction s with
  | nil => simp [pyContains] at h; exact absurd h ht
  | cons c s ih =>
    rw [pyPartition]
    by_cases hp : t.isPrefixOf (c :: s) = true
    · simp only [hp, if_true]
      obtain ⟨u, hu⟩ := isPrefixOf_append.1 hp
      refine ⟨?_, fun u' v' _ => by simp⟩
      rw [hu]; simp
    · simp only [hp]
      have hc : pyContains s t = true := by
        rw [pyContains, Bool.or_eq_true] at h
        exact h.resolve_left hp
      obtain ⟨h1, h2⟩ := ih hc
      refine ⟨by simp only [Bool.false_eq_true, if_false, List.cons_append]; rw [← h1], ?_⟩
      intro u' v' h'
      cases u' with
      | nil => exact absurd (isPrefixOf_append.2 ⟨v', by simpa using h'⟩) hp
      | cons d u' =>
        simp only [List.cons_append, List.cons.injEq] at h'
        have := h2 u' v' (by simpa using h'.2)
        simpa using this

theorem pyPartition_absent {s t : Str} (h : pyContains s t = false) : pyPartition t s = (s, []) := by
  induction s with
  | nil => rfl
  | cons c s ih =>
    rw [pyContains, Bool.or_eq_false_iff] at h
    rw [pyPartition, if_neg (by simp [h.1]), ih h.2]

section
variable (E : Env F) (n : Nat) (x : Item F)

theorem run_starts_with (a b : Expr F) : E.run n (.call "starts-with".toList [a, b]) x =
    strArg E.fo E.doc (E.run n a x) fun s => strArg E.fo E.doc (E.run n b x) fun t =>
      .one (.bool (pyStartsWith s t)) := by
  obtain ⟨dyn, h⟩ := run_call2 E n x "starts-with".toList a b
  rw [h, callFn]
  repeat rw [if_neg (by decide)]
  rw [if_pos rfl]
  rfl

theorem run_contains (a b : Expr F) : E.run n (.call "contains".toList [a, b]) x =
    strArg E.fo E.doc (E.run n a x) fun s => strArg E.fo E.doc (E.run n b x) fun t =>
      .one (.bool (pyContains s t)) := by
  obtain ⟨dyn, h⟩ := run_call2 E n x "contains".toList a b
  rw [h, callFn]
  repeat rw [if_neg (by decide)]
  rw [if_pos rfl]
  rfl

theorem run_before (a b : Expr F) : E.run n (.call "substring-before".toList [a, b]) x =
    strArg E.fo E.doc (E.run n a x) fun s => strArg E.fo E.doc (E.run n b x) fun t =>
      if t = [] then .fail .value else .one (.str (pyPartition t s).1) := by
  obtain ⟨dyn, h⟩ := run_call2 E n x "substring-before".toList a b
  rw [h, callFn]
  repeat rw [if_neg (by decide)]
  rw [if_pos rfl]
  rfl

theorem run_after (a b : Expr F) : E.run n (.call "substring-after".toList [a, b]) x =
    strArg E.fo E.doc (E.run n a x) fun s => strArg E.fo E.doc (E.run n b x) fun t =>
      if t = [] then .fail .value else .one (.str (pyPartition t s).2) := by
  obtain ⟨dyn, h⟩ := run_call2 E n x "substring-after".toList a b
  rw [h, callFn]
  repeat rw [if_neg (by decide)]
  rw [if_pos rfl]
  rfl

theorem run_substring (a b c : Expr F) : E.run n (.call "substring".toList [a, b, c]) x =
    strArg E.fo E.doc (E.run n a x) fun s => intArg E.fo E.doc b fun i => intArg E.fo E.doc c fun k =>
      .one (.str (pySlice s (i - 1) (i - 1 + k))) := by
  obtain ⟨dyn, h⟩ := run_call3 E n x "substring".toList a b c
  rw [h, callFn]
  repeat rw [if_neg (by decide)]
  rw [if_pos rfl]
  rfl

theorem run_length (a : Expr F) : E.run n (.call "string-length".toList [a]) x =
    (E.run n a x).orDefault (.str []) fun y => match y.strOf E.doc with
      | some s => .one (.int s.length)
      | none => .fail .type := by
  obtain ⟨dyn, h⟩ := run_call1 E n x "string-length".toList a
  rw [h, callFn]
  repeat rw [if_neg (by decide)]
  rw [if_pos rfl]
  rfl

theorem run_string (a : Expr F) : E.run n (.call "string".toList [a]) x =
    (E.run n a x).orDefault (.str []) fun y => .one (y.toStrItem E.fo E.doc) := by
  obtain ⟨dyn, h⟩ := run_call1 E n x "string".toList a
  rw [h, callFn]
  repeat rw [if_neg (by decide)]
  rw [if_pos rfl]
  rfl

theorem evalArgs_map (dyn : Str → Except XErr (Item F → Res F)) (es : List (Expr F)) :
    evalArgs E.fo E.doc E.vars n dyn es x = es.map fun e => eval E.fo E.doc E.vars n dyn e x := by
  induction es with
  | nil => rw [evalArgs]; rfl
  | cons e es ih => rw [evalArgs, ih]; rfl

theorem run_concat (es : List (Expr F)) : E.run n (.call "concat".toList es) x =
    concatRes E.fo E.doc (es.map fun e => E.run n e x) := by
  obtain ⟨dyn, h⟩ := run_eval E n
  simp only [h]
  rw [eval, evalArgs_map, callFn]
  repeat rw [if_neg (by decide)]
  rw [if_pos rfl]

end

/-- C55: `concat` yields the concatenation of the string values of all items of all arguments. -/
theorem C55_concat (E : Env F) (n : Nat) (x : Item F) (es : List (Expr F × List (Item F)))
    (h : ∀ e ∈ es, E.Yields n e.1 x e.2) :
    E.Yields n (.call "concat".toList (es.map (·.1))) x [.str ((es.flatMap (·.2)).flatMap E.strVal)] := by
  rw [Env.Yields, run_concat, concatRes]
  have : ((es.map (·.1)).map fun e => E.run n e x).foldr Res.append Res.nil = ⟨es.flatMap (·.2), .done⟩ := by
    induction es with
    | nil => rfl
    | cons e es ih =>
      have h1 := h e (by simp)
      rw [Env.Yields] at h1
      simp only [List.map_cons, List.foldr_cons]
      rw [ih (fun e he => h e (by simp [he])), h1]
      rfl
  simp only [this]
  simp only [toStr_strVal]
  rfl

/-- C55: `starts-with`, `contains`. -/
theorem C55_starts_with_contains (E : Env F) (n : Nat) (a b : Expr F) (x : Item F) (s t : Str)
    (ha : E.FirstStr n a x s) (hb : E.FirstStr n b x t) :
    (∃ r : Bool, E.Yields n (.call "starts-with".toList [a, b]) x [.bool r] ∧ (r = true ↔ ∃ u, s = t ++ u)) ∧
    (∃ r : Bool, E.Yields n (.call "contains".toList [a, b]) x [.bool r] ∧ (r = true ↔ ∃ u v, s = u ++ t ++ v)) := by
  refine ⟨⟨pyStartsWith s t, ?_, isPrefixOf_append⟩, ⟨pyContains s t, ?_, pyContains_iff s t⟩⟩
  · rw [Env.Yields, run_starts_with, firstStr_strArg ha, firstStr_strArg hb]; rfl
  · rw [Env.Yields, run_contains, firstStr_strArg ha, firstStr_strArg hb]; rfl

/-- C55: `substring-before` and `substring-after` of a string that contains the separator yield what is before and
after its first occurrence. -/
theorem C55_before_after_partial (E : Env F) (n : Nat) (a b : Expr F) (x : Item F) (s t : Str)
    (ha : E.FirstStr n a x s) (hb : E.FirstStr n b x t) (ht : t ≠ []) (hc : ∃ u v, s = u ++ t ++ v) :
    ∃ u v, FirstSplit s t u v ∧ E.Yields n (.call "substring-before".toList [a, b]) x [.str u] ∧
      E.Yields n (.call "substring-after".toList [a, b]) x [.str v] := by
  refine ⟨_, _, pyPartition_split ((pyContains_iff s t).2 hc) ht, ?_, ?_⟩
  · rw [Env.Yields, run_before, firstStr_strArg ha, firstStr_strArg hb, if_neg ht]; rfl
  · rw [Env.Yields, run_after, firstStr_strArg ha, firstStr_strArg hb, if_neg ht]; rfl

/-- C55: without the separator in it, `substring-before` yields the whole string and `substring-after` nothing;
with an empty separator both raise ValueError. -/
theorem C55_before_after_otherwise (E : Env F) (n : Nat) (a b : Expr F) (x : Item F) (s t : Str)
    (ha : E.FirstStr n a x s) (hb : E.FirstStr n b x t) :
    ((¬ ∃ u v, s = u ++ t ++ v) → E.Yields n (.call "substring-before".toList [a, b]) x [.str s] ∧
      E.Yields n (.call "substring-after".toList [a, b]) x [.str []]) ∧
    (t = [] → E.run n (.call "substring-before".toList [a, b]) x = ⟨[], .err .value⟩ ∧
      E.run n (.call "substring-after".toList [a, b]) x = ⟨[], .err .value⟩) := by
  constructor
  · intro hc
    have ht : t ≠ [] := by rintro rfl; exact hc ⟨[], s, rfl⟩
    have hc' : pyContains s t = false := by
      cases h : pyContains s t with
      | false => rfl
      | true => exact absurd ((pyContains_iff s t).1 h) hc
    constructor
    · rw [Env.Yields, run_before, firstStr_strArg ha, firstStr_strArg hb, if_neg ht, pyPartition_absent hc']; rfl
    · rw [Env.Yields, run_after, firstStr_strArg ha, firstStr_strArg hb, if_neg ht, pyPartition_absent hc']; rfl
  · intro ht
    constructor
    · rw [run_before, firstStr_strArg ha, firstStr_strArg hb, if_pos ht]; rfl
    · rw [run_after, firstStr_strArg ha, firstStr_strArg hb, if_pos ht]; rfl

/-- C55: `substring(e, i, k)` with literals `i ≥ 1` and `k ≥ 0` yields `k` characters from the `i`-th on. -/
theorem C55_substring (E : Env F) (n : Nat) (a : Expr F) (x : Item F) (s : Str) (i k : Nat) (hi : 1 ≤ i)
    (ha : E.FirstStr n a x s) :
    E.Yields n (.call "substring".toList [a, .lit (.int i), .lit (.int k)]) x [.str ((s.drop (i - 1)).take k)] := by
  rw [Env.Yields, run_substring, firstStr_strArg ha]
  have h1 : ¬ ((i : Int) - 1 < 0) := by omega
  have h2 : ¬ ((i : Int) - 1 + k < 0) := by omega
  have h3 : ((i : Int) - 1).toNat = i - 1 := by omega
  have h4 : ((i : Int) - 1 + k).toNat = i - 1 + k := by omega
  have : pySlice s ((i : Int) - 1) ((i : Int) - 1 + k) = (s.drop (i - 1)).take k := by
    rw [pySlice, clampIx, clampIx, if_neg h1, if_neg h2, h3, h4, List.take_drop]
    rw [List.take_eq_take_iff.2 (show min (min (i - 1 + k) s.length) s.length = min (i - 1 + k) s.length by omega)]
    by_cases h : i - 1 ≤ s.length
    · rw [Nat.min_eq_left h]
    · rw [Nat.min_eq_right (by omega), List.drop_eq_nil_of_le (by simp; omega), List.drop_eq_nil_of_le (by simp; omega)]
  simp only [intArg, Item.toNum, Res.need, Res.first, Res.one, this]

/-- C55: `string-length` of a string or text node is its number of characters. -/
theorem C55_string_length_partial (E : Env F) (n : Nat) (a : Expr F) (x y : Item F) (ys : List (Item F))
    (ha : E.Yields n a x (y :: ys)) (hy : ∀ p, y = .node p → ¬ E.doc.ElemAt p) (hs : y.Stringy) (hr : y ≠ .root)
    (hattr : ∀ p k v, y ≠ .attr p k v) (hhas : ∀ p, y = .node p → E.doc.Has p) :
    E.Yields n (.call "string-length".toList [a]) x [.int (E.strVal y).length] := by
  rw [Env.Yields] at ha
  rw [Env.Yields, run_length, ha]
  simp only [Res.orDefault, Res.first]
  cases y with
  | str s => rfl
  | node p =>
    obtain ⟨z, hz⟩ := hhas p rfl
    cases z with
    | elem m as cs => exact absurd ⟨m, as, cs, hz⟩ (hy p rfl)
    | text s => simp [Item.strOf, Item.textOf, hz, Env.strVal, Node.texts, Res.one]
  | root => exact absurd rfl hr
  | attr p k v => exact absurd rfl (hattr p k v)
  | _ => exact hs.elim

/-- C55: `string(expr)` yields one item with the string value of the first item of `expr`, and the empty string
if there is none. -/
theorem C55_string (E : Env F) (n : Nat) (a : Expr F) (x : Item F) (xs : List (Item F)) (ha : E.Yields n a x xs) :
    ∃ r, E.Yields n (.call "string".toList [a]) x [r] ∧
      E.strVal r = (match xs with | [] => [] | y :: _ => E.strVal y) := by
  rw [Env.Yields] at ha
  simp only [Env.Yields, run_string, ha]
  cases xs with
  | nil => exact ⟨.str [], rfl, rfl⟩
  | cons y ys =>
    refine ⟨y.toStrItem E.fo E.doc, rfl, ?_⟩
    rw [Item.toStrItem]
    split
    · rfl
    · exact toStr_strVal E y

/-- C55 as stated is false: an empty argument counts as the string `False`, `substring-before` yields the whole
string when the separator is absent, and `string-length` of an element raises TypeError. -/
theorem C55_full_statement_is_false :
    exEnv.Yields 0 (.call "starts-with".toList [.seq [], .lit (.str ['F', 'a'])]) (.node []) [.bool true] ∧
    exEnv.Yields 0 (.call "substring-before".toList [.lit (.str ['a', 'b']), .lit (.str ['c'])]) (.node [])
      [.str ['a', 'b']] ∧
    exEnv.run 0 (.call "string-length".toList [.step .child (.name ['c'])]) (.node []) = ⟨[], .err .type⟩ := by
  unfold Env.Yields; decide

example : exEnv.Yields 0 (.call "concat".toList [.step .child .node, .lit (.int 3)]) (.node [])
      [.str ['x', 'y', '3']] ∧
    exEnv.Yields 0 (.call "substring".toList [.lit (.str ['a', 'b', 'c', 'd']), .lit (.int 2), .lit (.int 2)]) (.node [])
      [.str ['b', 'c']] ∧
    exEnv.Yields 0 (.call "substring-after".toList [.lit (.str ['a', '-', 'c', '-']), .lit (.str ['-'])]) (.node [])
      [.str ['c', '-']] := by
  unfold Env.Yields; decide

example : exEnv.FirstStr 0 (.step .child (.name ['c'])) (.node []) ['y'] := ⟨.node [2], by decide, by decide⟩

end Amara
