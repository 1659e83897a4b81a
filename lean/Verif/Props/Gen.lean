import Verif.Spec.Gen
import Verif.Spec.Mutate
import Verif.Spec.Path
import Verif.Model.TreeUtil
import Verif.Props.Expat
import Verif.Props.Mutate
/-
Properties C102-C105: iterating over a tree while it is changed, and holding on to a part of a tree.
-/
namespace Amara

/-! ### the generator and what is still to come -/

theorem descNext_nil (h : Heap) : descNext h [] = none := by rw [descNext]

theorem descNext_cons (h : Heap) (e : Id) (k : Nat) (st : DescGen) :
    descNext h ((e, k) :: st) = match (h.children e)[k]? with
      | none => descNext h st
      | some c => if h.isElemB c then some (c, (c, 0) :: (e, k + 1) :: st) else descNext h ((e, k + 1) :: st) := by
  rw [descNext]
  split <;> rename_i hc <;> rw [hc]

/-- What a suspended `descendants` has still to give if nothing changes. -/
def Pending (h : Heap) : DescGen → List Id → Prop
  | [], l => l = []
  | (e, k) :: st, l => ∃ l1 l2, Below h ((h.children e).drop k) l1 ∧ Pending h st l2 ∧ l = l1 ++ l2

theorem descNext_pending (h : Heap) : ∀ (n : Nat) (g : DescGen) (l : List Id), genWork h g ≤ n → Pending h g l →
    (descNext h g = none ∧ l = []) ∨
      ∃ y g' l', descNext h g = some (y, g') ∧ l = y :: l' ∧ Pending h g' l' := by
  intro n
  induction n with
  | zero =>
    intro g l hn hp
    cases g with
    | nil => exact .inl ⟨descNext_nil h, hp⟩
    | cons f st => simp [genWork] at hn
  | succ n ih =>
    intro g l hn hp
    cases g with
    | nil => exact .inl ⟨descNext_nil h, hp⟩
    | cons f st =>
      obtain ⟨e, k⟩ := f
      obtain ⟨l1, l2, h1, h2, rfl⟩ := hp
      rw [descNext_cons]
      cases hc : (h.children e)[k]? with
      | none =>
        have hk : (h.children e).length ≤ k := List.getElem?_eq_none_iff.1 hc
        rw [List.drop_eq_nil_of_le hk] at h1
        cases h1
        simp only [List.nil_append]
        exact ih st l2 (by simp only [genWork, List.map_cons, List.sum_cons] at hn; rw [genWork]; omega) h2
      | some c =>
        obtain ⟨hk, hck⟩ := List.getElem?_eq_some_iff.1 hc
        rw [List.drop_eq_getElem_cons hk, hck] at h1
        cases h1 with
        | text ht hb =>
          simp only [ht, Bool.false_eq_true, if_false]
          exact ih ((e, k + 1) :: st) _ (by
            simp only [genWork, List.map_cons, List.sum_cons] at hn ⊢; omega) ⟨_, _, hb, h2, rfl⟩
        | @elem _ _ m m' ht hb hb' =>
          simp only [ht, if_true]
          refine .inr ⟨c, _, m ++ (m' ++ l2), rfl, by simp, m, m' ++ l2, by simpa using hb, ⟨m', l2, hb', h2, rfl⟩, rfl⟩

theorem pictures_append {h : Heap} {cs cs' : List Id} {ts ts' : List Node} (h1 : Pictures h cs ts)
    (h2 : Pictures h cs' ts') : Pictures h (cs ++ cs') (ts ++ ts') := by
  induction h1 with
  | nil => exact h2
  | cons hr _ ih => exact .cons hr ih

/-- The elements below an element are its descendants in the tree it stands for. -/
theorem below_exists {h : Heap} :
    (∀ (t : Node) (i : Id) (p : Option Id), Rep h p i t → h.isElemB i = !t.isText ∧ ∃ l, Below h (h.children i) l ∧
      ∀ q, Pictures h l ((t.descendants q).map Prod.snd)) ∧
    (∀ (ts : List Node) (par : Id) (cs : List Id), RepList h par cs ts → ∃ l, Below h cs l ∧
      ∀ q k, Pictures h l ((Node.descendantsList q k ts).map Prod.snd)) := by
  apply Node.induct
  case elem =>
    intro n as cs ih i p hr
    obtain ⟨cs', q, h1, h2, h3, h4⟩ := hr
    obtain ⟨l, hl, hp⟩ := ih i cs' h4
    have hc : h.children i = cs' := by simp [Heap.children, h1, Obj.kids]
    exact ⟨by simp [Heap.isElemB, h1, Node.isText], l, hc ▸ hl, fun q => hp q 0⟩
  case text =>
    intro s i p hr
    obtain ⟨q, h1, h2⟩ := hr
    have hc : h.children i = [] := by simp [Heap.children, h1, Obj.kids]
    exact ⟨by simp [Heap.isElemB, h1, Node.isText], [], by rw [hc]; exact .nil, fun _ => .nil⟩
  case nil =>
    intro par cs hr
    cases hr
    exact ⟨[], .nil, fun _ _ => .nil⟩
  case cons =>
    intro t ts iht ihts par cs hr
    obtain ⟨c, r, rfl, h1, h2⟩ := hr
    obtain ⟨b2, l1, b1, p1⟩ := iht c _ h1
    obtain ⟨l2, b3, p2⟩ := ihts par r h2
    cases t with
    | text s => exact ⟨l2, .text b2 b3, fun q k => p2 q (k + 1)⟩
    | elem n as cs =>
      refine ⟨_, .elem b2 b1 b3, fun q k => ?_⟩
      rw [Node.descendantsList, List.map_cons, List.map_append]
      exact .cons h1 (pictures_append (p1 _) (p2 _ _))

theorem below_kept {h h' : Heap} {T : Id → Prop} (hT : ∀ i, T i → ∀ c ∈ h.children i, T c)
    (hk : ∀ i, T i → h'.children i = h.children i ∧ h'.isElemB i = h.isElemB i) {cs l : List Id} (hb : Below h cs l) :
    (∀ c ∈ cs, T c) → Below h' cs l := by
  induction hb with
  | nil => intro _; exact .nil
  | @text c cs l h1 _ ih =>
    intro hc
    exact .text (by rw [(hk c (hc c (by simp))).2, h1]) (ih fun d hd => hc d (by simp [hd]))
  | @elem c cs l l' h1 _ _ ih1 ih2 =>
    intro hc
    obtain ⟨k1, k2⟩ := hk c (hc c (by simp))
    refine .elem (by rw [k2, h1]) ?_ (ih2 fun d hd => hc d (by simp [hd]))
    rw [k1]
    exact ih1 (hT c (hc c (by simp)))

theorem below_shrinks {h h' : Heap} {T : Id → Prop} (hT : ∀ i, T i → ∀ c ∈ h.children i, T c)
    (hk : ∀ i, T i → (h'.children i).Sublist (h.children i) ∧ h'.isElemB i = h.isElemB i) {cs l : List Id}
    (hb : Below h cs l) : (∀ c ∈ cs, T c) → ∀ cs', cs'.Sublist cs → ∃ l', Below h' cs' l' ∧ l'.Sublist l := by
  induction hb with
  | nil =>
    intro _ cs' hs
    rw [List.sublist_nil] at hs
    subst hs
    exact ⟨[], .nil, List.Sublist.refl _⟩
  | @text c cs l h1 _ ih =>
    intro hc cs' hs
    have ih := ih fun d hd => hc d (by simp [hd])
    cases hs with
    | cons _ hs => exact ih _ hs
    | cons_cons _ hs =>
      obtain ⟨l', b, s⟩ := ih _ hs
      exact ⟨l', .text (by rw [(hk c (hc c (by simp))).2, h1]) b, s⟩
  | @elem c cs l l' h1 _ _ ih1 ih2 =>
    intro hc cs' hs
    obtain ⟨k1, k2⟩ := hk c (hc c (by simp))
    have ih2 := ih2 fun d hd => hc d (by simp [hd])
    cases hs with
    | cons _ hs =>
      obtain ⟨m, b, s⟩ := ih2 _ hs
      exact ⟨m, b, (s.trans (List.sublist_append_right l l')).cons c⟩
    | cons_cons _ hs =>
      obtain ⟨m, b, s⟩ := ih2 _ hs
      obtain ⟨m', b', s'⟩ := ih1 (hT c (hc c (by simp))) _ k1
      exact ⟨_, .elem (by rw [k2, h1]) b' b, (s'.append s).cons_cons c⟩

/-- Where a suspended `descendants` can be: only at nodes of the tree. -/
theorem descNext_reach {T : Id → Prop} {h : Heap} (hT : ∀ i, T i → ∀ c ∈ h.children i, T c) : ∀ (n : Nat) (g : DescGen),
    genWork h g ≤ n → (∀ f ∈ g, T f.1) → ∀ y g', descNext h g = some (y, g') → T y ∧ ∀ f ∈ g', T f.1 := by
  intro n
  induction n with
  | zero =>
    intro g hn hg y g' hy
    cases g with
    | nil => rw [descNext_nil] at hy; cases hy
    | cons f st => simp [genWork] at hn
  | succ n ih =>
    intro g hn hg y g' hy
    cases g with
    | nil => rw [descNext_nil] at hy; cases hy
    | cons f st =>
      obtain ⟨e, k⟩ := f
      rw [descNext_cons] at hy
      cases hc : (h.children e)[k]? with
      | none =>
        rw [hc] at hy
        exact ih st (by simp only [genWork, List.map_cons, List.sum_cons] at hn; rw [genWork]; omega)
          (fun f hf => hg f (by simp [hf])) y g' hy
      | some c =>
        rw [hc] at hy
        have hk : k < (h.children e).length := (List.getElem?_eq_some_iff.1 hc).1
        have hte : T e := hg (e, k) (by simp)
        have htc : T c := hT e hte c (List.mem_of_getElem? hc)
        cases hb : h.isElemB c with
        | true =>
          simp only [hb, if_true, Option.some.injEq, Prod.mk.injEq] at hy
          obtain ⟨rfl, rfl⟩ := hy
          refine ⟨htc, fun f hf => ?_⟩
          simp only [List.mem_cons] at hf
          rcases hf with rfl | rfl | hf
          · exact htc
          · exact hte
          · exact hg f (by simp [hf])
        | false =>
          simp only [hb, Bool.false_eq_true, if_false] at hy
          refine ih ((e, k + 1) :: st) (by simp only [genWork, List.map_cons, List.sum_cons] at hn ⊢; omega)
            (fun f hf => ?_) y g' hy
          simp only [List.mem_cons] at hf
          rcases hf with rfl | hf
          · exact hte
          · exact hg f (by simp [hf])

theorem pending_kept {h h' : Heap} {T : Id → Prop} (hT : ∀ i, T i → ∀ c ∈ h.children i, T c)
    (hk : ∀ i, T i → h'.children i = h.children i ∧ h'.isElemB i = h.isElemB i) : ∀ (g : DescGen) (l : List Id),
    (∀ f ∈ g, T f.1) → Pending h g l → Pending h' g l := by
  intro g
  induction g with
  | nil => intro l _ hp; exact hp
  | cons f g ih =>
    obtain ⟨e, k⟩ := f
    intro l hg hp
    obtain ⟨l1, l2, h1, h2, h3⟩ := hp
    have hte : T e := hg (e, k) (by simp)
    refine ⟨l1, l2, ?_, ih l2 (fun f hf => hg f (by simp [hf])) h2, h3⟩
    rw [(hk e hte).1]
    exact below_kept hT hk h1 fun c hc => hT e hte c (List.mem_of_mem_drop hc)

theorem pending_shrinks {h h' : Heap} {T : Id → Prop} (hT : ∀ i, T i → ∀ c ∈ h.children i, T c)
    (hk : ∀ i, T i → (h'.children i).Sublist (h.children i) ∧ h'.isElemB i = h.isElemB i) : ∀ (g : DescGen) (l : List Id),
    (∀ f ∈ g, T f.1) → Pending h g l → ∃ l', Pending h' g l' ∧ l'.Sublist l := by
  intro g
  induction g with
  | nil => intro l _ hp; exact ⟨l, hp, List.Sublist.refl _⟩
  | cons f g ih =>
    obtain ⟨e, k⟩ := f
    intro l hg hp
    obtain ⟨l1, l2, h1, h2, rfl⟩ := hp
    have hte : T e := hg (e, k) (by simp)
    obtain ⟨m, p1, p2⟩ := ih l2 (fun f hf => hg f (by simp [hf])) h2
    obtain ⟨m', p3, p4⟩ := below_shrinks hT hk h1 (fun c hc => hT e hte c (List.mem_of_mem_drop hc)) _
      ((hk e hte).1.drop k)
    exact ⟨m' ++ m, ⟨m', m, p3, p1, rfl⟩, p4.append p2⟩

/-! ### C102 -/

/-- C102.  `descendants` under a caller that does anything else in between — asks other generators, changes names,
attributes or other trees — as long as it leaves the child lists of this tree alone: what has been given so far is the
beginning of the list of all elements below, in document order, and it ends when all have been given. -/
theorem C102_reads_the_whole_tree {h0 : Heap} {p : Option Id} {e : Id} {t : Node} (hr : Rep h0 p e t) :
    ∃ l, Below h0 (h0.children e) l ∧ Pictures h0 l ((t.descendants []).map Prod.snd) ∧
      ∀ {h : Heap} {g : DescGen} {vs : List Id}, GenRun (TreeKept h0 e) h0 (descGen e) [] h g vs →
        ∃ rest, l = vs ++ rest ∧ (descNext h g = none ↔ rest = []) := by
  obtain ⟨_, l, hl, hp⟩ := below_exists.1 t e p hr
  refine ⟨l, hl, hp [], fun {h g vs} hrun => ?_⟩
  have inv : ∃ rest, l = vs ++ rest ∧ Pending h g rest ∧ (∀ f ∈ g, Reachable h0 [e] f.1) ∧
      ∀ i, Reachable h0 [e] i → h.children i = h0.children i := by
    induction hrun with
    | refl =>
      refine ⟨l, rfl, ⟨l, [], by simpa using hl, rfl, by simp⟩, ?_, fun _ _ => rfl⟩
      intro f hf
      simp only [descGen, List.mem_singleton] at hf
      subst hf
      exact .root (by simp)
    | @change h1 g1 vs1 h2 _ hR ih =>
      obtain ⟨rest, a, b, c, d⟩ := ih
      refine ⟨rest, a, ?_, c, fun i hi => by rw [(hR i hi).1, d i hi]⟩
      refine pending_kept (T := Reachable h0 [e]) (fun i hi c hc => ?_) hR g1 rest c b
      rw [d i hi] at hc
      exact .child hi hc
    | @next h1 g1 vs1 y g2 _ hn ih =>
      obtain ⟨rest, a, b, c, d⟩ := ih
      have hT : ∀ i, Reachable h0 [e] i → ∀ c ∈ h1.children i, Reachable h0 [e] c := by
        intro i hi c hc
        rw [d i hi] at hc
        exact .child hi hc
      rcases descNext_pending h1 _ g1 rest (Nat.le_refl _) b with ⟨hnone, _⟩ | ⟨y', g', l', e1, e2, e3⟩
      · rw [hn] at hnone; cases hnone
      · rw [hn] at e1
        simp only [Option.some.injEq, Prod.mk.injEq] at e1
        obtain ⟨rfl, rfl⟩ := e1
        exact ⟨l', by rw [a, e2]; simp, e3, (descNext_reach hT _ g1 (Nat.le_refl _) c _ _ hn).2, d⟩
  obtain ⟨rest, a, b, _, _⟩ := inv
  refine ⟨rest, a, ?_⟩
  rcases descNext_pending h _ g rest (Nat.le_refl _) b with ⟨e1, e2⟩ | ⟨y, g', l', e1, e2, _⟩
  · simp [e1, e2]
  · simp [e1, e2]

/-! ### C103 -/

/-- C103, removals.  If the caller only takes nodes out of the tree, at any places, the iteration ends, gives every
element at most once and in document order (as it was at the start), and gives nothing else. -/
theorem C103_only_removals {h0 : Heap} {p : Option Id} {e : Id} {t : Node} (hr : Rep h0 p e t) :
    ∃ l, Below h0 (h0.children e) l ∧ Pictures h0 l ((t.descendants []).map Prod.snd) ∧
      ∀ {h : Heap} {g : DescGen} {vs : List Id}, GenRun (TreeShrinks h0 e) h0 (descGen e) [] h g vs →
        ∃ rest, (vs ++ rest).Sublist l ∧ (descNext h g = none ↔ rest = []) := by
  obtain ⟨_, l, hl, hp⟩ := below_exists.1 t e p hr
  refine ⟨l, hl, hp [], fun {h g vs} hrun => ?_⟩
  have inv : ∃ rest, (vs ++ rest).Sublist l ∧ Pending h g rest ∧ (∀ f ∈ g, Reachable h0 [e] f.1) ∧
      ∀ i, Reachable h0 [e] i → (h.children i).Sublist (h0.children i) := by
    induction hrun with
    | refl =>
      refine ⟨l, List.Sublist.refl _, ⟨l, [], by simpa using hl, rfl, by simp⟩, ?_, fun _ _ => List.Sublist.refl _⟩
      intro f hf
      simp only [descGen, List.mem_singleton] at hf
      subst hf
      exact .root (by simp)
    | @change h1 g1 vs1 h2 _ hR ih =>
      obtain ⟨rest, a, b, c, d⟩ := ih
      obtain ⟨rest', b', s⟩ := pending_shrinks (T := Reachable h0 [e])
        (fun i hi c hc => .child hi ((d i hi).subset hc)) hR g1 rest c b
      exact ⟨rest', ((List.Sublist.refl vs1).append s).trans a, b', c, fun i hi => (hR i hi).1.trans (d i hi)⟩
    | @next h1 g1 vs1 y g2 _ hn ih =>
      obtain ⟨rest, a, b, c, d⟩ := ih
      have hT : ∀ i, Reachable h0 [e] i → ∀ c ∈ h1.children i, Reachable h0 [e] c :=
        fun i hi c hc => .child hi ((d i hi).subset hc)
      rcases descNext_pending h1 _ g1 rest (Nat.le_refl _) b with ⟨hnone, _⟩ | ⟨y', g', l', e1, e2, e3⟩
      · rw [hn] at hnone; cases hnone
      · rw [hn] at e1
        simp only [Option.some.injEq, Prod.mk.injEq] at e1
        obtain ⟨rfl, rfl⟩ := e1
        exact ⟨l', by rw [e2] at a; simpa using a, e3, (descNext_reach hT _ g1 (Nat.le_refl _) c _ _ hn).2, d⟩
  obtain ⟨rest, a, b, _, _⟩ := inv
  refine ⟨rest, a, ?_⟩
  rcases descNext_pending h _ g rest (Nat.le_refl _) b with ⟨e1, e2⟩ | ⟨y, g', l', e1, e2, _⟩
  · simp [e1, e2]
  · simp [e1, e2]

/-- All that has been passed has been given. -/
def Seen (e : Id) (vs : List Id) (g : DescGen) (h : Heap) : Prop :=
  ∀ x, x = e ∨ x ∈ vs → ∀ c, h.isElemB c = true →
    (∀ k, (x, k) ∈ g → c ∈ (h.children x).take k → c ∈ vs) ∧ ((∀ k, (x, k) ∉ g) → c ∈ h.children x → c ∈ vs)

theorem seen_next {e : Id} {vs : List Id} {h : Heap} : ∀ (n : Nat) (g : DescGen), genWork h g ≤ n →
    (∀ f ∈ g, f.1 = e ∨ f.1 ∈ vs) → Seen e vs g h →
    (descNext h g = none → Seen e vs [] h) ∧
    ∀ y g', descNext h g = some (y, g') → Seen e (vs ++ [y]) g' h ∧ ∀ f ∈ g', f.1 = e ∨ f.1 ∈ vs ++ [y] := by
  intro n
  induction n with
  | zero =>
    intro g hn hg hs
    cases g with
    | nil => exact ⟨fun _ => hs, fun y g' hy => by rw [descNext_nil] at hy; cases hy⟩
    | cons f st => simp [genWork] at hn
  | succ n ih =>
    intro g hn hg hs
    cases g with
    | nil => exact ⟨fun _ => hs, fun y g' hy => by rw [descNext_nil] at hy; cases hy⟩
    | cons f st =>
      obtain ⟨b, k⟩ := f
      rw [descNext_cons]
      cases hc : (h.children b)[k]? with
      | none =>
        have hk : (h.children b).length ≤ k := List.getElem?_eq_none_iff.1 hc
        refine ih st (by simp only [genWork, List.map_cons, List.sum_cons] at hn; rw [genWork]; omega)
          (fun f hf => hg f (by simp [hf])) fun x hx c hcb => ⟨fun j hj hcj => ?_, fun hno hcx => ?_⟩
        · exact (hs x hx c hcb).1 j (by simp [hj]) hcj
        · by_cases hxb : x = b
          · subst hxb
            refine (hs x hx c hcb).1 k (by simp) ?_
            rw [List.take_of_length_le hk]
            exact hcx
          · refine (hs x hx c hcb).2 (fun j hj => ?_) hcx
            simp only [List.mem_cons, Prod.mk.injEq] at hj
            rcases hj with ⟨rfl, _⟩ | hj
            · exact hxb rfl
            · exact hno j hj
      | some c =>
        have hk : k < (h.children b).length := (List.getElem?_eq_some_iff.1 hc).1
        have htake : (h.children b).take (k + 1) = (h.children b).take k ++ [c] := by
          rw [List.take_add_one, hc]; rfl
        cases hb : h.isElemB c with
        | true =>
          simp only [hb, if_true]
          refine ⟨fun hh => by simp at hh, fun y g' hy => ?_⟩
          simp only [Option.some.injEq, Prod.mk.injEq] at hy
          obtain ⟨rfl, rfl⟩ := hy
          constructor
          · intro x hx d hd
            constructor
            · intro j hj hdj
              simp only [List.mem_cons, Prod.mk.injEq] at hj
              rcases hj with ⟨rfl, rfl⟩ | ⟨rfl, rfl⟩ | hj
              · simp at hdj
              · rw [htake, List.mem_append] at hdj
                rcases hdj with hdj | hdj
                · exact List.mem_append_left _ ((hs x (hg (x, k) (by simp)) d hd).1 k (by simp) hdj)
                · exact List.mem_append_right _ hdj
              · exact List.mem_append_left _ ((hs x (hg (x, j) (by simp [hj])) d hd).1 j (by simp [hj]) hdj)
            · intro hno hdx
              have hxc : x ≠ c := fun he => hno 0 (by simp [he])
              have hxb : x ≠ b := fun he => hno (k + 1) (by simp [he])
              have hx' : x = e ∨ x ∈ vs := by
                rcases hx with hx | hx
                · exact .inl hx
                · rw [List.mem_append, List.mem_singleton] at hx
                  rcases hx with hx | hx
                  · exact .inr hx
                  · exact absurd hx hxc
              refine List.mem_append_left _ ((hs x hx' d hd).2 (fun j hj => ?_) hdx)
              simp only [List.mem_cons, Prod.mk.injEq] at hj
              rcases hj with ⟨he, _⟩ | hj
              · exact hxb he
              · exact hno j (by simp [hj])
          · intro f hf
            simp only [List.mem_cons] at hf
            rcases hf with rfl | rfl | hf
            · exact .inr (by simp)
            · rcases hg (b, k) (by simp) with h1 | h1
              · exact .inl h1
              · exact .inr (List.mem_append_left _ h1)
            · rcases hg f (by simp [hf]) with h1 | h1
              · exact .inl h1
              · exact .inr (List.mem_append_left _ h1)
        | false =>
          simp only [hb, Bool.false_eq_true, if_false]
          refine ih ((b, k + 1) :: st) (by simp only [genWork, List.map_cons, List.sum_cons] at hn ⊢; omega) ?_ ?_
          · intro f hf
            simp only [List.mem_cons] at hf
            rcases hf with rfl | hf
            · exact hg (b, k) (by simp)
            · exact hg f (by simp [hf])
          · intro x hx d hd
            constructor
            · intro j hj hdj
              simp only [List.mem_cons, Prod.mk.injEq] at hj
              rcases hj with ⟨rfl, rfl⟩ | hj
              · rw [htake, List.mem_append, List.mem_singleton] at hdj
                rcases hdj with hdj | rfl
                · exact (hs x hx d hd).1 k (by simp) hdj
                · rw [hb] at hd; cases hd
              · exact (hs x hx d hd).1 j (by simp [hj]) hdj
            · intro hno hdx
              refine (hs x hx d hd).2 (fun j hj => ?_) hdx
              simp only [List.mem_cons, Prod.mk.injEq] at hj
              rcases hj with ⟨rfl, rfl⟩ | hj
              · exact hno (j + 1) (by simp)
              · exact hno j (by simp [hj])

/-- C103, changes ahead.  The caller may change the tree in any way, also add to it, as long as it puts no element
where the iteration has already been: when the iteration ends, every element that is then below `e` has been given. -/
theorem C103_changes_ahead {h0 h : Heap} {e : Id} {g : DescGen} {vs : List Id}
    (hrun : GenRun (NotBehind e) h0 (descGen e) [] h g vs) (hend : descNext h g = none) :
    ∀ c, Reachable h [e] c → h.isElemB c = true → c = e ∨ c ∈ vs := by
  have inv : Seen e vs g h ∧ ∀ f ∈ g, f.1 = e ∨ f.1 ∈ vs := by
    clear hend
    induction hrun with
    | refl =>
      refine ⟨fun x hx c hc => ⟨fun k hk hck => ?_, fun hno _ => ?_⟩, fun f hf => ?_⟩
      · simp only [descGen, List.mem_singleton, Prod.mk.injEq] at hk
        obtain ⟨rfl, rfl⟩ := hk
        simp at hck
      · rcases hx with rfl | hx
        · exact absurd (by simp [descGen]) (hno 0)
        · cases hx
      · simp only [descGen, List.mem_singleton] at hf
        subst hf
        exact .inl rfl
    | @change h1 g1 vs1 h2 _ hR ih =>
      obtain ⟨a, b⟩ := ih
      refine ⟨fun x hx c hc => ⟨fun k hk hck => ?_, fun hno hcx => ?_⟩, b⟩
      · obtain ⟨r1, r2⟩ := (hR x hx c hc).1 k hk hck
        exact (a x hx c r2).1 k hk r1
      · obtain ⟨r1, r2⟩ := (hR x hx c hc).2 hno hcx
        exact (a x hx c r2).2 hno r1
    | @next h1 g1 vs1 y g2 _ hn ih =>
      obtain ⟨a, b⟩ := ih
      exact (seen_next _ g1 (Nat.le_refl _) b a).2 y g2 hn
  have hseen := (seen_next _ g (Nat.le_refl _) inv.2 inv.1).1 hend
  intro c hc
  have key : ∀ c, Reachable h [e] c → (c = e ∨ c ∈ vs) ∨ h.isElemB c = false := by
    intro c hc
    induction hc with
    | root hi => exact .inl (.inl (by simpa using hi))
    | @child i c _ hci ih =>
      cases hb : h.isElemB c with
      | false => exact .inr rfl
      | true =>
        rcases ih with ih | ih
        · exact .inl (.inr ((hseen i ih c hb).2 (by simp) hci))
        · exfalso
          have : h.children i = [] := by
            unfold Heap.isElemB at ih
            unfold Heap.children
            cases ho : h.obj i with
            | none => rfl
            | some o =>
              rw [ho] at ih
              cases o with
              | elem => cases ih
              | text => rfl
          rw [this] at hci
          cases hci
  intro hb
  rcases key c hc with hk | hk
  · exact hk
  · rw [hk] at hb; cases hb

/-- `<r><a/><a/></r>` in memory. -/
def exPair : Heap := ⟨3, fun i => if i = 0 then some (.elem ['r'] [] [1, 2] none)
  else if i = 1 then some (.elem ['a'] [] [] (some 0)) else if i = 2 then some (.elem ['a'] [] [] (some 0)) else none⟩

theorem exPair_rep : Rep exPair none 0 (.elem ['r'] [] [.elem ['a'] [] [], .elem ['a'] [] []]) :=
  ⟨[1, 2], none, rfl, rfl, by decide, 1, [2], rfl, ⟨[], some 0, rfl, rfl, by simp, rfl⟩,
    2, [], rfl, ⟨[], some 0, rfl, rfl, by simp, rfl⟩, rfl⟩

theorem exPair_next : descNext exPair (descGen 0) = some (1, [(1, 0), (0, 1)]) := by
  rw [descGen, descNext_cons]; rfl

/-- Two items are given, then the iteration is at its end. -/
example : GenRun (TreeKept exPair 0) exPair (descGen 0) [] exPair [(2, 0), (0, 2)] [1, 2] ∧
    descNext exPair [(2, 0), (0, 2)] = none := by
  refine ⟨.next (.next .refl exPair_next) (g'' := [(2, 0), (0, 2)]) ?_, ?_⟩
  · rw [descNext_cons]; simp only [show (exPair.children 1)[0]? = none from rfl]; rw [descNext_cons]; rfl
  · rw [descNext_cons]; simp only [show (exPair.children 2)[0]? = none from rfl]
    rw [descNext_cons]; simp only [show (exPair.children 0)[2]? = none from rfl]; rw [descNext_nil]

/-- `<r><a/></r>` after the first child has been removed. -/
def exLess : Heap := ⟨3, fun i => if i = 0 then some (.elem ['r'] [] [2] none)
  else if i = 1 then some (.elem ['a'] [] [] none) else if i = 2 then some (.elem ['a'] [] [] (some 0)) else none⟩

/-- Removing what was just given makes `descendants` miss the next element, although it is still there. -/
theorem C103_removal_misses : ∃ g vs, exPair.xmlRemove 0 1 = .ok exLess ∧
    GenRun (TreeShrinks exPair 0) exPair (descGen 0) [] exLess g vs ∧ descNext exLess g = none ∧
    Reachable exLess [0] 2 ∧ exLess.isElemB 2 = true ∧ 2 ∉ vs := by
  refine ⟨[(1, 0), (0, 1)], [1], ?_, .change (.next .refl exPair_next) ?_, ?_, .child (i := 0) (.root (by simp)) (by decide), rfl,
    by simp⟩
  · simp only [Heap.xmlRemove, show exPair.obj 0 = some (.elem ['r'] [] [1, 2] none) from rfl]
    rw [if_pos (by decide)]
    congr 1
    simp only [exLess, Heap.unlink, show exPair.obj 1 = some (.elem ['a'] [] [] (some 0)) from rfl, Heap.setChildren]
    rw [show (exPair.set 1 (.elem ['a'] [] [] none)).obj 0 = some (.elem ['r'] [] [1, 2] none) from rfl]
    simp only [Heap.set, show (exPair.children 0).eraseP (exPair.pyEq 1) = [2] from rfl]
    congr 1
    funext j
    by_cases h0 : j = 0
    · simp [h0]
    · by_cases h1 : j = 1
      · simp [h1]
      · simp [h0, h1, exPair]
  · intro i _
    by_cases h0 : i = 0
    · subst h0; exact ⟨by decide, rfl⟩
    · by_cases h1 : i = 1
      · subst h1; exact ⟨by decide, rfl⟩
      · by_cases h2 : i = 2
        · subst h2; exact ⟨by decide, rfl⟩
        · simp [Heap.children, Heap.isElemB, exLess, exPair, h0, h1, h2]
  · rw [descNext_cons]; simp only [show (exLess.children 1)[0]? = none from rfl]
    rw [descNext_cons]; simp only [show (exLess.children 0)[1]? = none from rfl]; rw [descNext_nil]

/-- Removing an element further on, or adding one at the end, is a change ahead. -/
example : NotBehind 0 [1] [(1, 0), (0, 1)] exPair ⟨4, fun i => if i = 0 then some (.elem ['r'] [] [1, 3] none)
    else if i = 1 then some (.elem ['a'] [] [] (some 0)) else if i = 3 then some (.elem ['b'] [] [] (some 0)) else none⟩ := by
  intro x hx c hc
  have hx : x = 0 ∨ x = 1 := by simpa using hx
  refine ⟨fun k hk hck => ?_, fun hno => ?_⟩
  · simp only [List.mem_cons, Prod.mk.injEq, List.not_mem_nil, or_false] at hk
    rcases hk with ⟨rfl, rfl⟩ | ⟨rfl, rfl⟩
    · simp at hck
    · have : c = 1 := by simpa [Heap.children, Obj.kids] using hck
      subst this
      exact ⟨by decide, rfl⟩
  · rcases hx with rfl | rfl
    · exact absurd (by simp) (hno 1)
    · exact absurd (by simp) (hno 0)

/-! ### C104 -/

theorem selNext_some (test : Id → Bool) (h : Heap) (e : Id) (k : Nat) :
    selNext test h (some (e, k)) = match (h.children e)[k]? with
      | none => (none, none)
      | some c => if test c then (some c, some (e, k + 1)) else selNext test h (some (e, k + 1)) := by
  rw [selNext]
  split <;> rename_i hc <;> rw [hc]

theorem isElemB_iff {h : Heap} {i : Id} : h.isElemB i = true ↔ h.isElem i := by
  unfold Heap.isElemB Heap.isElem
  cases ho : h.obj i with
  | none => simp
  | some o => cases o <;> simp

theorem remove_elem {h h1 : Heap} {e y : Id} (hy : h.isElemB y = true) (hr : h.xmlRemove e y = .ok h1) :
    h1.children e = (h.children e).erase y ∧ ∀ i, h1.isElemB i = h.isElemB i := by
  have hy := isElemB_iff.1 hy
  refine ⟨(C26_remove_element_partial hy hr).2.1, fun i => ?_⟩
  obtain ⟨n, as, cs, p, n', as', cs', p', he, hc, hmem, hn, hobj⟩ := remove_spec hy hr
  simp only [Heap.isElemB, hobj]
  by_cases h1 : i = e
  · subst h1; simp [he]
  · by_cases h2 : i = y
    · subst h2; simp [h1, hc]
    · simp [h1, h2]

theorem selElements_spec (h : Heap) (e : Id) : ∀ (n k : Nat), (h.children e).length - k ≤ n →
    (selElements h (some (e, k)) = (none, none) ∧ ∀ x ∈ (h.children e).drop k, h.isElemB x = false) ∨
    ∃ u y w, (h.children e).drop k = u ++ y :: w ∧ (∀ x ∈ u, h.isElemB x = false) ∧ h.isElemB y = true ∧
      selElements h (some (e, k)) = (some y, some (e, k + u.length + 1)) := by
  intro n
  induction n with
  | zero =>
    intro k hk
    have hk : (h.children e).length ≤ k := by omega
    left
    refine ⟨?_, by rw [List.drop_eq_nil_of_le hk]; simp⟩
    rw [selElements, selNext_some, List.getElem?_eq_none_iff.2 hk]
  | succ n ih =>
    intro k hk
    cases hc : (h.children e)[k]? with
    | none =>
      left
      have hk : (h.children e).length ≤ k := List.getElem?_eq_none_iff.1 hc
      refine ⟨by rw [selElements, selNext_some, hc], by rw [List.drop_eq_nil_of_le hk]; simp⟩
    | some c =>
      obtain ⟨hlt, hck⟩ := List.getElem?_eq_some_iff.1 hc
      have hd : (h.children e).drop k = c :: (h.children e).drop (k + 1) := by
        rw [List.drop_eq_getElem_cons hlt, hck]
      cases hb : h.isElemB c with
      | true =>
        exact .inr ⟨[], c, (h.children e).drop (k + 1), hd, by simp, hb, by
          rw [selElements, selNext_some, hc]; simp [hb]⟩
      | false =>
        have hstep : selElements h (some (e, k)) = selElements h (some (e, k + 1)) := by
          rw [selElements, selNext_some, hc]; simp [hb, selElements]
        rw [hstep, hd]
        rcases ih (k + 1) (by omega) with ⟨h1, h2⟩ | ⟨u, y, w, h1, h2, h3, h4⟩
        · refine .inl ⟨h1, fun x hx => ?_⟩
          rcases List.mem_cons.1 hx with rfl | hx
          · exact hb
          · exact h2 x hx
        · refine .inr ⟨c :: u, y, w, by rw [h1]; rfl, fun x hx => ?_, h3, ?_⟩
          · rcases List.mem_cons.1 hx with rfl | hx
            · exact hb
            · exact h2 x hx
          · rw [h4, List.length_cons]; congr 3; omega

theorem takenOut_skip {α} {p : α → Bool} {x : α} (hx : p x = false) (r : List α) :
    takenOut p (x :: r) = x :: takenOut p r := by
  cases r <;> simp [takenOut, hx]

theorem takenOut_append {α} {p : α → Bool} {u : List α} (hu : ∀ x ∈ u, p x = false) (r : List α) :
    takenOut p (u ++ r) = u ++ takenOut p r := by
  induction u with
  | nil => rfl
  | cons x u ih =>
    rw [List.cons_append, takenOut_skip (hu x (by simp)), ih fun y hy => hu y (by simp [hy])]
    rfl

theorem takenOut_hit {α} {p : α → Bool} {x : α} (hx : p x = true) (r : List α) :
    takenOut p (x :: r) = r.take 1 ++ takenOut p (r.drop 1) := by
  cases r <;> simp [takenOut, hx]

theorem removeLoop_spec {p : Id → Bool} {e : Id} {h h' : Heap} {g : SelGen} (hl : RemoveLoop p e h g h') :
    ∀ k, g = some (e, k) → (h.children e).Nodup →
      h'.children e = (h.children e).take k ++ takenOut (fun c => h.isElemB c && p c) ((h.children e).drop k) := by
  have stop : ∀ {h h' : Heap}, RemoveLoop p e h none h' → h' = h := by
    intro h h' hl
    cases hl with
    | done => rfl
    | keep hs => rw [selElements, selNext] at hs; cases hs
    | remove hs => rw [selElements, selNext] at hs; cases hs
  induction hl with
  | @done h g g' hs =>
    intro k hg hn
    subst hg
    rcases selElements_spec h e _ k (Nat.le_refl _) with ⟨h1, h2⟩ | ⟨u, y, w, h1, h2, h3, h4⟩
    · have := takenOut_append (p := fun c => h.isElemB c && p c) (u := (h.children e).drop k)
        (fun x hx => by simp [h2 x hx]) []
      rw [List.append_nil] at this
      rw [this]
      simp [takenOut]
    · rw [h4] at hs; cases hs
  | @keep h g y g' h' hs hp hl ih =>
    intro k hg hn
    subst hg
    rcases selElements_spec h e _ k (Nat.le_refl _) with ⟨h1, h2⟩ | ⟨u, y', w, h1, h2, h3, h4⟩
    · rw [h1] at hs; cases hs
    · rw [h4] at hs
      cases hs
      rw [ih _ rfl hn, h1, takenOut_append (fun x hx => by simp [h2 x hx]), takenOut_skip (by simp [hp])]
      have hk : k ≤ (h.children e).length := by
        have := congrArg List.length h1
        simp at this
        omega
      have hcs : h.children e = (h.children e).take k ++ (u ++ y :: w) := by rw [← h1, List.take_append_drop]
      have hlen : ((h.children e).take k).length = k := by rw [List.length_take]; omega
      generalize hpre : (h.children e).take k = pre at *
      rw [hcs]
      have e1 : (pre ++ (u ++ y :: w)).take (k + u.length + 1) = pre ++ (u ++ [y]) := by
        rw [← hlen, Nat.add_assoc, List.take_length_add_append, List.take_length_add_append]; simp
      have e2 : (pre ++ (u ++ y :: w)).drop (k + u.length + 1) = w := by
        rw [← hlen, Nat.add_assoc, List.drop_length_add_append, List.drop_length_add_append]; simp
      rw [e1, e2]
      simp
  | @remove h g y g' h1 h' hs hp hr hl ih =>
    intro k hg hn
    subst hg
    rcases selElements_spec h e _ k (Nat.le_refl _) with ⟨a1, a2⟩ | ⟨u, y', w, a1, a2, a3, a4⟩
    · rw [a1] at hs; cases hs
    · rw [a4] at hs
      cases hs
      obtain ⟨r1, r2⟩ := remove_elem a3 hr
      have hk : k ≤ (h.children e).length := by
        have := congrArg List.length a1
        simp at this
        omega
      have hcs : h.children e = (h.children e).take k ++ (u ++ y :: w) := by rw [← a1, List.take_append_drop]
      have hlen : ((h.children e).take k).length = k := by rw [List.length_take]; omega
      rw [a1, takenOut_append (fun x hx => by simp [a2 x hx]), takenOut_hit (by simp [hp, a3])]
      rw [ih _ rfl (by rw [r1]; exact hn.erase _), r1]
      have hfun : (fun c => h1.isElemB c && p c) = fun c => h.isElemB c && p c := by funext c; rw [r2]
      rw [hfun]
      generalize hpre : (h.children e).take k = pre at *
      have herase : (h.children e).erase y = pre ++ (u ++ w) := by
        rw [hcs] at hn ⊢
        rw [← List.append_assoc] at hn ⊢
        rw [List.erase_append_right _ (by
          intro hm
          have := (List.nodup_append.1 hn).2.2 y hm y (by simp)
          exact this rfl)]
        simp
      rw [herase]
      have e1 : (pre ++ (u ++ w)).take (k + u.length + 1) = pre ++ (u ++ w.take 1) := by
        rw [← hlen, Nat.add_assoc, List.take_length_add_append, List.take_length_add_append]
      have e2 : (pre ++ (u ++ w)).drop (k + u.length + 1) = w.drop 1 := by
        rw [← hlen, Nat.add_assoc, List.drop_length_add_append, List.drop_length_add_append]
      rw [e1, e2]
      simp

/-- C104, exactly: `for x in select_elements(e): if p(x): e.xml_remove(x)` passes over the node after each element it
removes. -/
theorem C104_what_is_left {p : Id → Bool} {e : Id} {h h' : Heap} (hn : (h.children e).Nodup)
    (hl : RemoveLoop p e h (some (e, 0)) h') :
    h'.children e = takenOut (fun c => h.isElemB c && p c) (h.children e) := by
  simpa using removeLoop_spec hl 0 rfl hn

/-- The loop always runs to its end. -/
theorem C104_loop_ends {p : Id → Bool} {e : Id} : ∀ (n k : Nat) (h : Heap), h.isElem e → (h.children e).length - k ≤ n →
    (h.children e).Nodup → ∃ h', RemoveLoop p e h (some (e, k)) h' := by
  intro n
  induction n with
  | zero =>
    intro k h he hk _
    rcases selElements_spec h e _ k (Nat.le_refl _) with ⟨h1, _⟩ | ⟨u, y, w, h1, _⟩
    · exact ⟨h, .done h1⟩
    · have := congrArg List.length h1
      simp at this
      omega
  | succ n ih =>
    intro k h he hk hn
    rcases selElements_spec h e _ k (Nat.le_refl _) with ⟨h1, _⟩ | ⟨u, y, w, h1, h2, h3, h4⟩
    · exact ⟨h, .done h1⟩
    · have hlen := congrArg List.length h1
      simp at hlen
      cases hp : p y with
      | false =>
        obtain ⟨h', hl⟩ := ih (k + u.length + 1) h he (by omega) hn
        exact ⟨h', .keep h4 hp hl⟩
      | true =>
        have hy := isElemB_iff.1 h3
        have hmem : y ∈ h.children e := List.mem_of_mem_drop (i := k) (by rw [h1]; simp)
        obtain ⟨h1', hr⟩ := (C26_remove_succeeds_iff he hy).1 hmem
        obtain ⟨r1, r2⟩ := remove_elem h3 hr
        obtain ⟨h', hl⟩ := ih (k + u.length + 1) h1' (isElemB_iff.1 (by rw [r2]; exact isElemB_iff.2 he))
          (by rw [r1, List.length_erase_of_mem hmem]; omega) (by rw [r1]; exact hn.erase _)
        exact ⟨h', .remove h4 hp hr hl⟩

theorem takenOut_filter {α} {p : α → Bool} : ∀ (n : Nat) (l : List α), l.length ≤ n →
    (∀ u x y r, l = u ++ x :: y :: r → p x = true → p y = false) → takenOut p l = l.filter fun x => !p x := by
  intro n
  induction n with
  | zero =>
    intro l hl _
    have : l = [] := List.length_eq_zero_iff.1 (Nat.le_zero.1 hl)
    subst this; rfl
  | succ n ih =>
    intro l hl hadj
    cases l with
    | nil => rfl
    | cons x l =>
      cases hx : p x with
      | false =>
        rw [takenOut_skip hx, ih l (by simpa using hl) (fun u a b r h => hadj (x :: u) a b r (by simp [h]))]
        simp [hx]
      | true =>
        cases l with
        | nil => simp [takenOut, hx]
        | cons y l =>
          have hy := hadj [] x y l rfl hx
          rw [takenOut_hit hx]
          simp only [List.take_succ_cons, List.take_zero, List.drop_succ_cons, List.drop_zero]
          rw [ih l (by simp at hl; omega) (fun u a b r h => hadj (x :: y :: u) a b r (by simp [h]))]
          simp [hx, hy]

/-- C104, partial: if no two neighbouring children are to be removed, exactly those to be removed are.  Missing:
neighbours; the second of two is then left. -/
theorem C104_no_neighbours_partial {p : Id → Bool} {e : Id} {h h' : Heap} (hn : (h.children e).Nodup)
    (hadj : ∀ u x y r, h.children e = u ++ x :: y :: r → h.isElemB x = true → p x = true →
      ¬ (h.isElemB y = true ∧ p y = true))
    (hl : RemoveLoop p e h (some (e, 0)) h') :
    h'.children e = (h.children e).filter fun c => !(h.isElemB c && p c) := by
  rw [C104_what_is_left hn hl, takenOut_filter _ _ (Nat.le_refl _)]
  intro u x y r hc hx
  simp only [Bool.and_eq_true] at hx
  have := hadj u x y r hc hx.1 hx.2
  cases h1 : h.isElemB y <;> cases h2 : p y <;> simp_all

theorem removeEach_spec {p : Id → Bool} {e : Id} {h h' : Heap} {ys : List Id} (hl : RemoveEach p e h ys h') :
    (∀ y ∈ ys, h.isElemB y = true) → (h.children e).Nodup →
      (∀ i, h'.isElemB i = h.isElemB i) ∧ h'.children e = (h.children e).filter fun c => !(ys.contains c && p c) := by
  induction hl with
  | nil =>
    intro _ _
    exact ⟨fun _ => rfl, by simpa using (List.filter_eq_self.2 (by simp)).symm⟩
  | @keep h y ys h' hp _ ih =>
    intro hy hn
    obtain ⟨i1, i2⟩ := ih (fun z hz => hy z (by simp [hz])) hn
    refine ⟨i1, i2.trans (List.filter_congr fun c _ => ?_)⟩
    by_cases hc : c = y
    · subst hc; simp [hp]
    · simp [hc]
  | @remove h y ys h1 h' hp hr _ ih =>
    intro hy hn
    obtain ⟨r1, r2⟩ := remove_elem (hy y (by simp)) hr
    obtain ⟨i1, i2⟩ := ih (fun z hz => by rw [r2]; exact hy z (by simp [hz])) (by rw [r1]; exact hn.erase _)
    refine ⟨fun i => (i1 i).trans (r2 i), ?_⟩
    rw [i2, r1, hn.erase_eq_filter, List.filter_filter]
    refine List.filter_congr fun c _ => ?_
    by_cases hc : c = y
    · subst hc; simp [hp]
    · simp [hc]

/-- C104, the safe way: the same loop over `list(select_elements(e))` removes exactly what is to be removed. -/
theorem C104_over_a_copy {p : Id → Bool} {e : Id} {h h' : Heap} (hn : (h.children e).Nodup)
    (hl : RemoveEach p e h ((h.children e).filter h.isElemB) h') :
    h'.children e = (h.children e).filter fun c => !(h.isElemB c && p c) := by
  obtain ⟨_, h2⟩ := removeEach_spec hl (fun y hy => (List.mem_filter.1 hy).2) hn
  rw [h2]
  refine List.filter_congr fun c hc => ?_
  have : ((h.children e).filter h.isElemB).contains c = h.isElemB c := by
    rw [Bool.eq_iff_iff, List.contains_iff_mem, List.mem_filter]
    simp [hc]
  rw [this]

/-- C104 as stated is false: removing all children in the loop leaves the second of `<r><a/><a/></r>`. -/
theorem C104_full_statement_is_false : ∃ (h h' : Heap) (e : Id), Rep h none e (.elem ['r'] [] [.elem ['a'] [] [], .elem ['a'] [] []]) ∧
    RemoveLoop (fun _ => true) e h (some (e, 0)) h' ∧ h'.children e = [2] := by
  have hn : (exPair.children 0).Nodup := by decide
  obtain ⟨h', hl⟩ := C104_loop_ends (p := fun _ => true) (e := 0) _ 0 exPair ⟨_, _, _, _, rfl⟩ (Nat.le_refl _) hn
  refine ⟨exPair, h', 0, ?_, hl, ?_⟩
  · exact exPair_rep
  · rw [C104_what_is_left hn hl]; decide

/-! ### C105 -/

/-- C105.  Keeping a reference to an element keeps the whole tree below it as it is, whatever the collector does.  Its
`xml_parent` stays what it was if something that is kept leads to the parent, and otherwise it is that or None. -/
theorem C105_kept_element {roots : List Id} {h h' : Heap} (hc : Collected roots h h') {i : Id} (hi : i ∈ roots)
    {p : Option Id} {t : Node} (hr : Rep h p i t) :
    ∃ p', Rep h' p' i t ∧ (p' = p ∨ p' = none) ∧ (∀ q, p = some q → Reachable h roots q → p' = p) := by
  have hsame : ∀ k, Reachable h roots k → h'.obj k = h.obj k := by
    intro k hk
    rcases hc.2 k with h1 | ⟨_, h1⟩
    · exact h1
    · exact absurd hk h1
  have hre : ∀ k, Reachable h [i] k → Reachable h roots k := by
    intro k hk
    induction hk with
    | root hk => rw [List.mem_singleton.1 hk]; exact .root hi
    | child _ hc ih => exact .child ih hc
  have hs : ∀ k, Reachable h [i] k → h'.obj k = h.obj k := fun k hk => hsame k (hre k hk)
  have hii : Reachable h [i] i := .root (by simp)
  have hp : h.xmlParent i = p := by
    cases t with
    | elem n as ts => obtain ⟨_, _, _, h2, _⟩ := hr; exact h2
    | text s => obtain ⟨_, _, h2⟩ := hr; exact h2
  have hobj := hs i hii
  have hpar : h'.xmlParent i = h'.deref ((h.obj i).bind Obj.link) := by rw [Heap.xmlParent, hobj]
  refine ⟨h'.xmlParent i, ?_, ?_, ?_⟩
  · cases t with
    | text s =>
      obtain ⟨q, h1, h2⟩ := hr
      exact ⟨q, by rw [hobj, h1], rfl⟩
    | elem n as ts =>
      obtain ⟨cs, q, h1, h2, h3, h4⟩ := hr
      refine ⟨cs, q, by rw [hobj, h1], rfl, h3, ?_⟩
      refine (rep_same hs).2 ts i cs hii (fun c hc => .child hii ?_) (by rw [h1]; rfl) h4
      simpa [Heap.children, h1, Obj.kids] using hc
  · rw [hpar, ← hp, Heap.xmlParent]
    cases hl : (h.obj i).bind Obj.link with
    | none => exact .inl rfl
    | some q =>
      simp only [Heap.deref]
      rcases hc.2 q with h1 | ⟨h1, _⟩
      · rw [h1]; exact .inl rfl
      · rw [h1]; simp
  · intro q hq hreach
    rw [hpar, ← hp, Heap.xmlParent]
    have hq' : h.deref ((h.obj i).bind Obj.link) = some q := by rw [← Heap.xmlParent, hp, hq]
    cases hl : (h.obj i).bind Obj.link with
    | none => rfl
    | some q' =>
      rw [hl] at hq'
      simp only [Heap.deref] at hq' ⊢
      have : q' = q := by
        split at hq'
        · simpa using hq'
        · cases hq'
      subst this
      rw [hsame q' hreach]

/-- The parent can be lost: of `<r><a/><a/></r>` only the first child is kept, and its `xml_parent` becomes None. -/
theorem C105_parent_is_lost : ∃ (h h' : Heap) (i e : Id), Rep h (some e) i (.elem ['a'] [] []) ∧ Collected [i] h h' ∧
    Rep h' none i (.elem ['a'] [] []) := by
  refine ⟨exPair, { exPair with obj := fun j => if j = 0 then none else exPair.obj j }, 1, 0,
    ⟨[], some 0, rfl, rfl, by simp, rfl⟩, ⟨rfl, fun j => ?_⟩, ⟨[], some 0, rfl, rfl, by simp, rfl⟩⟩
  by_cases hj : j = 0
  · subst hj
    refine .inr ⟨rfl, fun hr => ?_⟩
    generalize hz : (0 : Id) = z at hr
    induction hr with
    | root h1 => subst hz; simp at h1
    | @child a c h1 h2 _ =>
      subst hz
      have : ∀ a, 0 ∉ exPair.children a := by
        intro a
        simp only [Heap.children, exPair]
        by_cases h0 : a = 0
        · simp [h0, Obj.kids]
        · by_cases h1 : a = 1
          · simp [h1, Obj.kids]
          · by_cases h2 : a = 2
            · simp [h2, Obj.kids]
            · simp [h0, h1, h2]
      exact this a h2
  · exact .inl (by simp [hj])

end Amara
