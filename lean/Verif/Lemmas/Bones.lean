import Verif.Spec.Bones
import Verif.Props.XPathOps
import Verif.Props.TreeUtil
/-
Lemmas on positions counted among elements.
-/
namespace Amara

theorem bonesList_get : ∀ {cs : List Node} {i : Nat} {m as ds}, cs[i]? = some (.elem m as ds) →
    (Node.bonesList cs)[countElems (cs.take i)]? = some (.elem m as (Node.bonesList ds))
  | [], _, _, _, _, h => by simp at h
  | .elem n bs es :: cs, 0, m, as, ds, h => by
    simp only [List.getElem?_cons_zero, Option.some.injEq, Node.elem.injEq] at h
    obtain ⟨rfl, rfl, rfl⟩ := h
    simp [Node.bonesList, countElems]
  | .text s :: cs, 0, m, as, ds, h => by simp at h
  | .elem n bs es :: cs, i + 1, m, as, ds, h => by
    have := bonesList_get (cs := cs) (i := i) (by simpa using h)
    simpa [Node.bonesList, countElems, Node.isText] using this
  | .text s :: cs, i + 1, m, as, ds, h => by
    have := bonesList_get (cs := cs) (i := i) (by simpa using h)
    simpa [Node.bonesList, countElems, Node.isText] using this

theorem bonesList_onto : ∀ {cs : List Node} {k : Nat} {x : Node}, (Node.bonesList cs)[k]? = some x →
    ∃ i m as ds, cs[i]? = some (.elem m as ds) ∧ countElems (cs.take i) = k ∧ x = .elem m as (Node.bonesList ds)
  | [], k, x, h => by simp [Node.bonesList] at h
  | .elem n bs es :: cs, 0, x, h => by
    simp only [Node.bonesList, List.getElem?_cons_zero, Option.some.injEq] at h
    exact ⟨0, n, bs, es, rfl, rfl, h.symm⟩
  | .elem n bs es :: cs, k + 1, x, h => by
    obtain ⟨i, m, as, ds, h1, h2, h3⟩ := bonesList_onto (cs := cs) (k := k) (by simpa [Node.bonesList] using h)
    exact ⟨i + 1, m, as, ds, by simpa using h1, by simp [countElems, Node.isText] at h2 ⊢; exact h2, h3⟩
  | .text s :: cs, k, x, h => by
    obtain ⟨i, m, as, ds, h1, h2, h3⟩ := bonesList_onto (cs := cs) (k := k) (by simpa [Node.bonesList] using h)
    exact ⟨i + 1, m, as, ds, by simpa using h1, by simp [countElems, Node.isText] at h2 ⊢; exact h2, h3⟩

/-- The element at a position is in the bones at the position counted among elements. -/
theorem at_bones : ∀ (p : Path) {x : Node} {m as cs}, x.at? p = some (.elem m as cs) →
    x.bones.at? (x.among p) = some (.elem m as (Node.bonesList cs))
  | [], x, m, as, cs, h => by
    simp only [Node.at?, Option.some.injEq] at h
    subst h
    rfl
  | i :: p, .text s, _, _, _, h => by simp [Node.at?, Node.xmlChildren] at h
  | i :: p, .elem n bs ds, m, as, cs, h => by
    simp only [Node.at?, Node.xmlChildren] at h
    cases hi : ds[i]? with
    | none => rw [hi] at h; cases h
    | some y =>
      rw [hi] at h
      cases y with
      | text s => cases p <;> simp [Node.at?, Node.xmlChildren] at h
      | elem k cs' es =>
        have h1 := at_bones p h
        simp only [Node.among, Node.xmlChildren, hi, Node.bones, Node.at?, bonesList_get hi]
        exact h1

theorem bones_onto : ∀ (q : Path) {x : Node} {y : Node}, x.isText = false → x.bones.at? q = some y →
    ∃ p, x.ElemAt p ∧ x.among p = q
  | [], .elem n as cs, y, _, _ => ⟨[], ⟨n, as, cs, rfl⟩, rfl⟩
  | q, .text s, y, h, _ => by cases h
  | k :: q, .elem n as cs, y, _, h => by
    simp only [Node.bones, Node.at?, Node.xmlChildren] at h
    cases hk : (Node.bonesList cs)[k]? with
    | none => rw [hk] at h; cases h
    | some z =>
      rw [hk] at h
      obtain ⟨i, m, bs, ds, h1, h2, rfl⟩ := bonesList_onto hk
      obtain ⟨p, ⟨m', as', cs', h3⟩, h4⟩ := bones_onto q (x := .elem m bs ds) rfl h
      refine ⟨i :: p, ⟨m', as', cs', by simp [Node.at?, Node.xmlChildren, h1, h3]⟩, ?_⟩
      simp [Node.among, Node.xmlChildren, h1, h2, h4]

theorem among_length : ∀ (p : Path) (x : Node), (x.among p).length = p.length
  | [], x => rfl
  | i :: p, x => by
    simp only [Node.among, List.length_cons]
    split
    · rw [among_length p]
    · rfl

theorem among_append : ∀ (p q : Path) {x y : Node}, x.at? p = some y → x.among (p ++ q) = x.among p ++ y.among q
  | [], q, x, y, h => by
    simp only [Node.at?, Option.some.injEq] at h
    simp [Node.among, h]
  | i :: p, q, x, y, h => by
    simp only [Node.at?] at h
    cases hi : x.xmlChildren[i]? with
    | none => rw [hi] at h; cases h
    | some z =>
      rw [hi] at h
      simp only [List.cons_append, Node.among, hi, among_append p q h]

/-- What is above an element is an element. -/
theorem elemAt_above {x : Node} (hx : x.isText = false) : ∀ (p q : Path), x.ElemAt (p ++ q) → x.ElemAt p := by
  intro p q h
  obtain ⟨m, as, cs, h⟩ := h
  induction p generalizing x with
  | nil =>
    cases x with
    | text s => cases hx
    | elem n bs ds => exact ⟨n, bs, ds, rfl⟩
  | cons i p ih =>
    simp only [List.cons_append, Node.at?] at h
    cases hi : x.xmlChildren[i]? with
    | none => rw [hi] at h; cases h
    | some z =>
      rw [hi] at h
      cases z with
      | text s =>
        cases hpq : p ++ q with
        | nil => rw [hpq] at h; simp [Node.at?] at h
        | cons j r => rw [hpq] at h; simp [Node.at?, Node.xmlChildren] at h
      | elem n bs ds =>
        obtain ⟨m', as', cs', h'⟩ := ih (x := .elem n bs ds) rfl h
        exact ⟨m', as', cs', by simp [Node.at?, hi, h']⟩

theorem countElems_lt {cs : List Node} {i j : Nat} {m as ds} (h : cs[i]? = some (.elem m as ds)) (hij : i < j) :
    countElems (cs.take i) < countElems (cs.take j) := by
  obtain ⟨hi, he⟩ := List.getElem?_eq_some_iff.1 h
  have h2 : (cs.take j)[i]? = some (.elem m as ds) := by rw [List.getElem?_take_of_lt hij]; exact h
  obtain ⟨hl2, he2⟩ := List.getElem?_eq_some_iff.1 h2
  have h1 : cs.take j = cs.take i ++ (.elem m as ds :: (cs.take j).drop (i + 1)) := by
    conv => lhs; rw [← List.take_append_drop i (cs.take j)]
    rw [← he2, List.getElem_cons_drop, List.take_take, Nat.min_eq_left (by omega)]
  rw [h1]
  simp [countElems, Node.isText]

theorem among_lt : ∀ (p q : Path) {x : Node}, x.ElemAt p → x.ElemAt q → docLt p q → docLt (x.among p) (x.among q)
  | [], [], _, _, _, h => h
  | [], _ :: _, _, _, _, _ => trivial
  | _ :: _, [], _, _, _, h => h
  | i :: p, j :: q, x, hp, hq, h => by
    obtain ⟨m, as, cs, hp⟩ := hp
    obtain ⟨m', as', cs', hq⟩ := hq
    simp only [Node.at?] at hp hq
    cases hi : x.xmlChildren[i]? with
    | none => rw [hi] at hp; cases hp
    | some z =>
      rw [hi] at hp
      rcases h with h | ⟨rfl, h⟩
      · cases z with
        | text s => cases p <;> simp [Node.at?, Node.xmlChildren] at hp
        | elem n bs ds => exact .inl (countElems_lt hi h)
      · rw [hi] at hq
        simp only [Node.among, hi]
        exact .inr ⟨rfl, among_lt p q ⟨m, as, cs, hp⟩ ⟨m', as', cs', hq⟩ h⟩

theorem docLt_asymm {p q : Path} (h : docLt p q) (h' : docLt q p) : False := docLt_irrefl p (docLt_trans h h')

theorem among_lt_iff {p q : Path} {x : Node} (hp : x.ElemAt p) (hq : x.ElemAt q) : docLt (x.among p) (x.among q) ↔ docLt p q := by
  refine ⟨fun h => ?_, among_lt p q hp hq⟩
  rcases docLt_total p q with h1 | rfl | h1
  · exact h1
  · exact absurd h (docLt_irrefl _)
  · exact absurd h (fun h => docLt_asymm h (among_lt q p hq hp h1))

theorem among_inj {p q : Path} {x : Node} (hp : x.ElemAt p) (hq : x.ElemAt q) (h : x.among p = x.among q) : p = q := by
  rcases docLt_total p q with h1 | h1 | h1
  · exact absurd (h ▸ among_lt p q hp hq h1) (docLt_irrefl _)
  · exact h1
  · exact absurd (h ▸ among_lt q p hq hp h1) (docLt_irrefl _)

/-- Below, counted among elements, is below. -/
theorem among_below {x : Node} (hx : x.isText = false) {p q s : Path} (hp : x.ElemAt p) (hq : x.ElemAt q)
    (h : x.among q = x.among p ++ s) : ∃ r, q = p ++ r ∧ r.length = s.length := by
  have hl : q.length = p.length + s.length := by
    have := congrArg List.length h
    rw [List.length_append, among_length, among_length] at this
    exact this
  have hq' : q = q.take p.length ++ q.drop p.length := (List.take_append_drop _ _).symm
  have hu : x.ElemAt (q.take p.length) := elemAt_above hx _ (q.drop p.length) (by rw [← hq']; exact hq)
  obtain ⟨m, as, cs, hu'⟩ := hu
  have h1 := among_append (q.take p.length) (q.drop p.length) hu'
  rw [← hq', h] at h1
  have h2 : x.among p = x.among (q.take p.length) := by
    refine (List.append_inj h1 ?_).1
    rw [among_length, among_length, List.length_take]
    omega
  have h3 := among_inj hp ⟨m, as, cs, hu'⟩ h2
  refine ⟨q.drop p.length, ?_, by rw [List.length_drop]; omega⟩
  refine hq'.trans ?_
  rw [← h3]

theorem length_one {α} {l : List α} (h : l.length = 1) : ∃ a, l = [a] := by
  match l, h with
  | [a], _ => exact ⟨a, rfl⟩

theorem last_split {α} {l : List α} {n : Nat} (h : l.length = n + 1) : ∃ u a, l = u ++ [a] := by
  rcases List.eq_nil_or_concat l with rfl | ⟨u, a, rfl⟩
  · simp at h
  · exact ⟨u, a, by simp⟩

theorem sibling_among {x : Node} (hx : x.isText = false) {p q : Path} (hp : x.ElemAt p) (hq : x.ElemAt q) :
    (∃ u i j, x.among p = u ++ [i] ∧ x.among q = u ++ [j] ∧ i < j) ↔ ∃ u i j, p = u ++ [i] ∧ q = u ++ [j] ∧ i < j := by
  constructor
  · rintro ⟨w, k, l, h1, h2, h3⟩
    have hlp : p.length = w.length + 1 := by rw [← among_length p x, h1]; simp
    have hlq : q.length = w.length + 1 := by rw [← among_length q x, h2]; simp
    obtain ⟨u, i, rfl⟩ := last_split hlp
    obtain ⟨v, j, rfl⟩ := last_split hlq
    obtain ⟨m, as, cs, hu⟩ := elemAt_above hx u [i] hp
    obtain ⟨m', as', cs', hv⟩ := elemAt_above hx v [j] hq
    have h4 := among_append u [i] hu
    have h5 := among_append v [j] hv
    have h6 : x.among u = w := by
      rw [h1] at h4
      exact ((List.append_inj h4 (by rw [among_length]; simp at hlp; exact hlp.symm)).1).symm
    have h7 : x.among v = w := by
      rw [h2] at h5
      exact ((List.append_inj h5 (by rw [among_length]; simp at hlq; exact hlq.symm)).1).symm
    obtain rfl := among_inj ⟨m, as, cs, hu⟩ ⟨m', as', cs', hv⟩ (h6.trans h7.symm)
    refine ⟨u, i, j, rfl, rfl, ?_⟩
    have h8 : docLt (x.among (u ++ [i])) (x.among (u ++ [j])) := by
      rw [h1, h2]; exact docLt_sibling w h3 [] []
    have h9 := (among_lt_iff hp hq).1 h8
    rw [docLt_front] at h9
    rcases h9 with h9 | ⟨_, h9⟩
    · exact h9
    · exact h9.elim
  · rintro ⟨u, i, j, rfl, rfl, h⟩
    obtain ⟨m, as, cs, hu⟩ := elemAt_above hx u [i] hp
    have h4 := among_append u [i] hu
    have h5 := among_append u [j] hu
    obtain ⟨k, hk⟩ := length_one (l := (Node.elem m as cs).among [i]) (by rw [among_length]; rfl)
    obtain ⟨l, hl⟩ := length_one (l := (Node.elem m as cs).among [j]) (by rw [among_length]; rfl)
    rw [hk] at h4
    rw [hl] at h5
    refine ⟨x.among u, k, l, h4, h5, ?_⟩
    have h8 := among_lt _ _ hp hq (docLt_sibling u h [] [])
    rw [h4, h5, docLt_front] at h8
    rcases h8 with h9 | ⟨_, h9⟩
    · exact h9
    · exact h9.elim

/-- The axes between elements are the same, counted among elements. -/
theorem onAxis_among {x : Node} (hx : x.isText = false) {a : Axis} (ha : ElementAxis a) {p q : Path} (hp : x.ElemAt p) (hq : x.ElemAt q) :
    OnAxis a (x.among p) (x.among q) ↔ OnAxis a p q := by
  rcases ha with rfl | rfl | rfl | rfl | rfl | rfl
  · exact ⟨fun h => among_inj hq hp h, fun h => congrArg _ h⟩
  · constructor
    · rintro ⟨k, h⟩
      obtain ⟨r, rfl, hr⟩ := among_below hx hp hq h
      obtain ⟨i, rfl⟩ := length_one hr
      exact ⟨i, rfl⟩
    · rintro ⟨i, rfl⟩
      obtain ⟨m, as, cs, hp'⟩ := hp
      obtain ⟨k, hk⟩ := length_one (l := (Node.elem m as cs).among [i]) (by rw [among_length]; rfl)
      exact ⟨k, by rw [among_append p [i] hp', hk]⟩
  · constructor
    · rintro ⟨s, hs, h⟩
      obtain ⟨r, rfl, hr⟩ := among_below hx hp hq h
      exact ⟨r, fun h0 => hs (List.length_eq_zero_iff.1 (by rw [← hr, h0]; rfl)), rfl⟩
    · rintro ⟨r, hr, rfl⟩
      obtain ⟨m, as, cs, hp'⟩ := hp
      exact ⟨(Node.elem m as cs).among r, fun h0 => hr (List.length_eq_zero_iff.1 (by rw [← among_length r (Node.elem m as cs), h0]; rfl)),
        among_append p r hp'⟩
  · constructor
    · rintro ⟨s, h⟩
      obtain ⟨r, rfl, hr⟩ := among_below hx hp hq h
      exact ⟨r, rfl⟩
    · rintro ⟨r, rfl⟩
      obtain ⟨m, as, cs, hp'⟩ := hp
      exact ⟨_, among_append p r hp'⟩
  · exact sibling_among hx hp hq
  · have := sibling_among hx hq hp
    constructor
    · rintro ⟨u, i, j, h1, h2, h3⟩
      obtain ⟨u', i', j', h4, h5, h6⟩ := this.1 ⟨u, j, i, h2, h1, h3⟩
      exact ⟨u', j', i', h5, h4, h6⟩
    · rintro ⟨u, i, j, h1, h2, h3⟩
      obtain ⟨u', i', j', h4, h5, h6⟩ := this.2 ⟨u, j, i, h2, h1, h3⟩
      exact ⟨u', j', i', h5, h4, h6⟩

/-- Two lists with the same members in the same order are equal. -/
theorem same_sorted {α} {R : α → α → Prop} (hR : ∀ a b, R a b → R b a → False) : ∀ {l m : List α}, l.Pairwise R → m.Pairwise R →
    (∀ a, a ∈ l ↔ a ∈ m) → l = m
  | [], [], _, _, _ => rfl
  | [], b :: m, _, _, h => absurd ((h b).2 (by simp)) (by simp)
  | a :: l, [], _, _, h => absurd ((h a).1 (by simp)) (by simp)
  | a :: l, b :: m, hl, hm, h => by
    rw [List.pairwise_cons] at hl hm
    have hab : a = b := by
      rcases List.mem_cons.1 ((h a).1 (by simp)) with h1 | h1
      · exact h1
      · rcases List.mem_cons.1 ((h b).2 (by simp)) with h2 | h2
        · exact h2.symm
        · exact (hR a b (hl.1 b h2) (hm.1 a h1)).elim
    subst hab
    congr 1
    refine same_sorted hR hl.2 hm.2 fun c => ⟨fun hc => ?_, fun hc => ?_⟩
    · rcases List.mem_cons.1 ((h c).1 (by simp [hc])) with rfl | h1
      · exact (hR c c (hl.1 c hc) (hl.1 c hc)).elim
      · exact h1
    · rcases List.mem_cons.1 ((h c).2 (by simp [hc])) with rfl | h1
      · exact (hR c c (hm.1 c hc) (hm.1 c hc)).elim
      · exact h1

end Amara
