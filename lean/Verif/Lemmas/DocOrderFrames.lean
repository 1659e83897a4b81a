import Verif.Model.DocOrderFrames
import Verif.Spec.DocOrderFrames
import Verif.Lemmas.DocOrder
/-
Lemmas for C149: the numbering loop with limited room.
-/
namespace Amara

/-! ### The calls in each other -/

/-- The elements whose loops are under way are each the parent of the one inside. -/
def GenChain (h : Heap) (t : Id) : DescGen → Prop
  | [] => True
  | [(e, _)] => e = t
  | (e, _) :: (f, k) :: st => h.xmlParent e = some f ∧ GenChain h t ((f, k) :: st)

theorem genChain_up {h : Heap} {t : Id} : ∀ {g : DescGen} {e k}, GenChain h t ((e, k) :: g) → upTimes h g.length e = some t
  | [], e, k, hc => by simp only [GenChain] at hc; subst hc; rfl
  | (f, j) :: st, e, k, hc => by
    obtain ⟨h1, h2⟩ := hc
    rw [List.length_cons, upTimes, h1]
    exact genChain_up h2

theorem genChain_moved {h : Heap} {t : Id} {e k k' st} (hc : GenChain h t ((e, k) :: st)) : GenChain h t ((e, k') :: st) := by
  cases st with
  | nil => exact hc
  | cons f st => exact hc

theorem genChain_tail {h : Heap} {t : Id} {f st} (hc : GenChain h t (f :: st)) : GenChain h t st := by
  cases st with
  | nil => trivial
  | cons f' st => exact hc.2

theorem genChain_next {h : Heap} {t : Id} {T : Id → Prop} (hT : ∀ i, T i → ∀ c ∈ h.children i, T c ∧ h.xmlParent c = some i) :
    ∀ (n : Nat) (g : DescGen), genWork h g ≤ n → GenChain h t g → (∀ f ∈ g, T f.1) → ∀ {y g'}, descNext h g = some (y, g') →
      ∃ st, g' = (y, 0) :: st ∧ GenChain h t g' ∧ ∀ f ∈ g', T f.1 := by
  intro n
  induction n with
  | zero =>
    intro g hn _ _ y g' hd
    cases g with
    | nil => rw [descNext_nil] at hd; cases hd
    | cons f st => simp [genWork] at hn
  | succ n ih =>
    intro g hn hc hm y g' hd
    cases g with
    | nil => rw [descNext_nil] at hd; cases hd
    | cons f st =>
      obtain ⟨e, k⟩ := f
      rw [descNext_cons] at hd
      cases hk : (h.children e)[k]? with
      | none =>
        rw [hk] at hd
        exact ih st (by simp only [genWork, List.map_cons, List.sum_cons] at hn; rw [genWork]; omega) (genChain_tail hc)
          (fun f hf => hm f (by simp [hf])) hd
      | some c =>
        rw [hk] at hd
        have hlt := (List.getElem?_eq_some_iff.1 hk).1
        simp only at hd
        split at hd
        · cases hd
          obtain ⟨h1, h2⟩ := hT e (hm (e, k) (by simp)) y (List.mem_of_getElem? hk)
          refine ⟨_, rfl, ⟨h2, genChain_moved hc⟩, ?_⟩
          intro f hf
          rcases List.mem_cons.1 hf with rfl | hf
          · exact h1
          · rcases List.mem_cons.1 hf with rfl | hf
            · exact hm (e, k) (by simp)
            · exact hm f (by simp [hf])
        · refine ih ((e, k + 1) :: st) ?_ (genChain_moved hc) ?_ hd
          · simp only [genWork, List.map_cons, List.sum_cons] at hn ⊢
            omega
          · intro f hf
            rcases List.mem_cons.1 hf with rfl | hf
            · exact hm (e, k) (by simp)
            · exact hm f (by simp [hf])

/-- The loop: it stops after the first element that is too deep. -/
theorem numberRestK_spec {h : Heap} {t : Id} (ht : h.xmlParent t = none) {T : Id → Prop}
    (hT : ∀ i, T i → ∀ c ∈ h.children i, T c ∧ h.xmlParent c = some i) (room : Nat) :
    ∀ (u v : List Id), (∀ i ∈ u, ¬ Deep h t room i) → (∀ x, v.head? = some x → Deep h t room x) →
    ∀ (n : Nat) (g : DescGen) (k : Nat) (m : Numbers), Pending h g (u ++ v) → GenChain h t g → (∀ f ∈ g, T f.1) → g.length ≤ room →
    (u ++ v).length ≤ n →
    ∃ m', numberRestK h room n g k m = some (m', !v.isEmpty) ∧ m'.root = m.root ∧ (∀ i, i ∉ u ++ v.take 1 → m'.obj i = m.obj i) ∧
      ((u ++ v.take 1).Nodup → ∀ (j : Nat) i, (u ++ v.take 1)[j]? = some i → m'.obj i = some (k + 1 + j)) := by
  intro u
  induction u with
  | nil =>
    intro v _ hv n g k m hp hc hm hl hn
    simp only [List.nil_append] at hp hn
    rcases descNext_pending h _ g v (Nat.le_refl _) hp with ⟨h1, h2⟩ | ⟨y, g', l', h1, h2, h3⟩
    · subst h2
      exact ⟨m, by unfold numberRestK; rw [if_neg (by omega), h1]; rfl, rfl, fun _ _ => rfl, fun _ j i hj => by simp at hj⟩
    · subst h2
      obtain ⟨st, rfl, hc', hm'⟩ := genChain_next hT _ g (Nat.le_refl _) hc hm h1
      obtain ⟨j, hj, hjt⟩ := hv y rfl
      have := upTimes_unique ht _ _ _ hjt (genChain_up hc')
      cases n with
      | zero => simp at hn
      | succ n =>
        refine ⟨m.put y (k + 1), ?_, rfl, ?_, ?_⟩
        · unfold numberRestK
          rw [if_neg (by omega), h1]
          simp only
          unfold numberRestK
          rw [if_pos (by simp only [List.length_cons]; omega)]
          rfl
        · intro i hi
          simp only [List.nil_append, List.take_succ_cons, List.take_zero, List.mem_singleton] at hi
          simp [Numbers.put, hi]
        · intro _ j i hj
          cases j with
          | zero =>
            simp only [List.nil_append, List.take_succ_cons, List.take_zero, List.getElem?_cons_zero, Option.some.injEq] at hj
            simp [Numbers.put, hj]
          | succ j => simp at hj
  | cons y u ih =>
    intro v hu hv n g k m hp hc hm hl hn
    rcases descNext_pending h _ g (y :: (u ++ v)) (Nat.le_refl _) hp with ⟨_, h2⟩ | ⟨y', g', l', h1, h2, h3⟩
    · cases h2
    · cases h2
      obtain ⟨st, rfl, hc', hm'⟩ := genChain_next hT _ g (Nat.le_refl _) hc hm h1
      have hlen : st.length < room := by
        rcases Nat.lt_or_ge st.length room with h4 | h4
        · exact h4
        · exact absurd ⟨_, h4, genChain_up hc'⟩ (hu y (by simp))
      cases n with
      | zero => simp at hn
      | succ n =>
        obtain ⟨m', e1, e2, e3, e4⟩ := ih v (fun i hi => hu i (by simp [hi])) hv n ((y, 0) :: st) (k + 1) (m.put y (k + 1)) h3 hc' hm'
          (by simp only [List.length_cons]; omega) (by simpa using hn)
        refine ⟨m', ?_, e2, ?_, ?_⟩
        · unfold numberRestK
          rw [if_neg (by omega), h1]
          exact e1
        · intro i hi
          simp only [List.cons_append, List.mem_cons, not_or] at hi
          rw [e3 i hi.2]
          simp [Numbers.put, hi.1]
        · intro hd j i hj
          rw [List.cons_append, List.nodup_cons] at hd
          cases j with
          | zero =>
            simp only [List.cons_append, List.getElem?_cons_zero, Option.some.injEq] at hj
            subst hj
            rw [e3 y hd.1]
            simp [Numbers.put]
          | succ j =>
            rw [List.cons_append, List.getElem?_cons_succ] at hj
            rw [e4 hd.2 j i hj]
            congr 1
            omega

/-- Elements `u ++ v` in document order, the first of `v` being the first one that is too deep. -/
def CutAt (h : Heap) (t : Id) (room : Nat) (u v : List Id) : Prop :=
  (∀ i ∈ u, ¬ Deep h t room i) ∧ ∀ x, v.head? = some x → Deep h t room x

theorem numbersK_goUp {h : Heap} {t : Id} {tree : Node} (hr : Rep h none t tree) {u v : List Id} (ho : ElementsOf h t (u ++ v)) {room : Nat}
    (h0 : 0 < room) (hcut : CutAt h t room u v) (m : Numbers) (n k : Nat) (hn : (u ++ v).length ≤ n) :
    ∃ m', numberRestK h room n (descGen t) k (m.put t k) = some (m', !v.isEmpty) ∧ m'.root = m.root ∧
      GoUp m' ((u ++ v.take 1).map .obj) ∧ (∀ i, i ∉ u ++ v.take 1 → m'.obj i = m.obj i) ∧
      ∀ i ∈ u ++ v.take 1, ∃ j, m'.obj i = some j ∧ k ≤ j := by
  have hd := elements_nodup hr ho
  have ht : h.xmlParent t = none := (rep_children hr).1
  obtain ⟨ids, hb, he⟩ := ho
  have hT : ∀ i, Reachable h [t] i → ∀ c ∈ h.children i, Reachable h [t] c ∧ h.xmlParent c = some i :=
    fun i hi c hc => ⟨.child hi hc, (rep_reach hr hi).2.2 c hc⟩
  cases u with
  | nil =>
    cases v with
    | nil => cases he
    | cons x v =>
      cases he
      obtain ⟨j, hj, hjt⟩ := hcut.2 t rfl
      have := upTimes_unique ht j 0 t hjt rfl
      omega
  | cons x u =>
    cases he
    rw [List.cons_append, List.nodup_cons] at hd
    have hp : Pending h (descGen t) (u ++ v) := ⟨_, [], by simpa using hb, rfl, by simp⟩
    obtain ⟨m', e1, e2, e3, e4⟩ := numberRestK_spec ht hT room u v (fun i hi => hcut.1 i (by simp [hi])) hcut.2 n (descGen t) k (m.put t k) hp
      rfl (by simp only [descGen, List.mem_singleton]; rintro f rfl; exact .root (by simp)) (by simp [descGen]; omega)
      (by simp only [List.cons_append, List.length_cons] at hn; omega)
    have hnd : (u ++ v.take 1).Nodup := hd.2.sublist ((List.Sublist.refl _).append (List.take_sublist _ _))
    have htn : t ∉ u ++ v.take 1 := fun hm => hd.1 (((List.Sublist.refl u).append (List.take_sublist 1 v)).subset hm)
    have h00 : m'.obj t = some k := by rw [e3 t htn]; simp [Numbers.put]
    have key : ∀ (j : Nat) i, (t :: (u ++ v.take 1))[j]? = some i → m'.obj i = some (k + j) := by
      intro j i hj
      cases j with
      | zero =>
        simp only [List.getElem?_cons_zero, Option.some.injEq] at hj
        subst hj; exact h00
      | succ j =>
        rw [List.getElem?_cons_succ] at hj
        rw [e4 hnd j i hj]; congr 1; omega
    refine ⟨m', e1, e2, ⟨?_, ?_⟩, ?_, ?_⟩
    · intro x hx
      obtain ⟨i, hi, rfl⟩ := List.mem_map.1 hx
      obtain ⟨j, hj⟩ := List.mem_iff_getElem?.1 hi
      exact ⟨_, key j i hj⟩
    · rw [List.pairwise_map]
      refine pairwise_of_index _ ?_
      intro i j a b hij ha hb p q hp hq
      simp only [Numbers.of] at hp hq
      rw [key i a ha] at hp; rw [key j b hb] at hq
      cases hp; cases hq; omega
    · intro i hi
      simp only [List.cons_append, List.mem_cons, not_or] at hi
      rw [e3 i hi.2]; simp [Numbers.put, hi.1]
    · intro i hi
      obtain ⟨j, hj⟩ := List.mem_iff_getElem?.1 hi
      exact ⟨_, key j i hj, by omega⟩

/-- What `index_docorder` does at a node of the tree. -/
theorem indexK {h : Heap} {t : Id} {tree : Node} (hr : Rep h none t tree) (d : Id) (m : Numbers) (room : Nat) {ctx : ONode} (hc : Within h t ctx) :
    ∃ N, ∀ n, N ≤ n → indexDocorderK h d room n m ctx = numberRestK h room n (descGen t) 0 (m.put t 0) := by
  have ht : h.xmlParent t = none := (rep_children hr).1
  have key : ∀ i, Reachable h [t] i → ∃ N, ∀ n, N ≤ n → topOf h n i = some t := by
    intro i hi
    obtain ⟨k, hk⟩ := (rep_reach hr hi).1
    exact ⟨k, fun n hn => topOf_upTimes ht k n i hk hn⟩
  cases ctx with
  | root => exact hc.elim
  | obj i => obtain ⟨N, hN⟩ := key i hc; exact ⟨N, fun n hn => by rw [indexDocorderK, hN n hn]; rfl⟩
  | attr e => obtain ⟨N, hN⟩ := key e hc; exact ⟨N, fun n hn => by rw [indexDocorderK, hN n hn]; rfl⟩

/-- With the root before them. -/
theorem goUp_root {m : Numbers} {l : List Id} (hr : m.root = some 0) (hg : GoUp m (l.map .obj))
    (hk : ∀ i ∈ l, ∃ j, m.obj i = some j ∧ 1 ≤ j) : GoUp m (.root :: l.map .obj) := by
  refine ⟨?_, List.pairwise_cons.2 ⟨?_, hg.2⟩⟩
  · intro x hx
    rcases List.mem_cons.1 hx with rfl | hx
    · exact ⟨0, hr⟩
    · exact hg.1 x hx
  · intro x hx p q hp hq
    obtain ⟨i, hi, rfl⟩ := List.mem_map.1 hx
    obtain ⟨j, hj, hkj⟩ := hk i hi
    simp only [Numbers.of] at hp hq
    rw [hr] at hp; rw [hj] at hq
    cases hp; cases hq; omega

end Amara
