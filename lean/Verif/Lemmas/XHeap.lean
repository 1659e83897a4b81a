import Verif.Spec.XHeap
import Verif.Spec.XLive
import Verif.Lemmas.XLive
import Verif.Lemmas.DocOrder
import Verif.Lemmas.SenderMem
import Verif.Lemmas.XPath
import Verif.Props.Prune
import Verif.Props.XLivePath
import Verif.Props.XPathOps
/-
Evaluating on objects in memory and on the document they stand for (C153).
-/
namespace Amara

/-- The lists are related item by item. -/
inductive All2 {α β} (R : α → β → Prop) : List α → List β → Prop
  | nil : All2 R [] []
  | cons {x y xs ys} : R x y → All2 R xs ys → All2 R (x :: xs) (y :: ys)

section
variable {α β γ δ : Type} {R : α → β → Prop}

theorem all2_append {xs xs' ys ys'} (h : All2 R xs ys) (h' : All2 R xs' ys') : All2 R (xs ++ xs') (ys ++ ys') := by
  induction h with
  | nil => exact h'
  | cons h _ ih => exact .cons h ih

theorem all2_length {xs ys} (h : All2 R xs ys) : xs.length = ys.length := by
  induction h with
  | nil => rfl
  | cons _ _ ih => simp [ih]

theorem all2_index {xs ys} (h : All2 R xs ys) : ∀ (j : Nat) x y, xs[j]? = some x → ys[j]? = some y → R x y := by
  induction h with
  | nil => intro j x y hx; simp at hx
  | cons h _ ih =>
    intro j x y hx hy
    cases j with
    | zero => simp at hx hy; subst hx; subst hy; exact h
    | succ j => exact ih j x y (by simpa using hx) (by simpa using hy)

theorem all2_of_index : ∀ {xs : List α} {ys : List β}, xs.length = ys.length →
    (∀ (j : Nat) x y, xs[j]? = some x → ys[j]? = some y → R x y) → All2 R xs ys
  | [], [], _, _ => .nil
  | [], _ :: _, h, _ => by simp at h
  | _ :: _, [], h, _ => by simp at h
  | x :: xs, y :: ys, h, hf => .cons (hf 0 x y rfl rfl) (all2_of_index (by simpa using h) fun j a b ha hb =>
      hf (j + 1) a b (by simpa using ha) (by simpa using hb))

theorem all2_map {S : γ → δ → Prop} {f : α → γ} {g : β → δ} {xs ys} (h : All2 R xs ys) (hf : ∀ x y, R x y → S (f x) (g y)) :
    All2 S (xs.map f) (ys.map g) := by
  induction h with
  | nil => exact .nil
  | cons h _ ih => exact .cons (hf _ _ h) ih

theorem all2_flatMap {S : γ → δ → Prop} {f : α → List γ} {g : β → List δ} {xs ys} (h : All2 R xs ys)
    (hf : ∀ x y, R x y → All2 S (f x) (g y)) : All2 S (xs.flatMap f) (ys.flatMap g) := by
  induction h with
  | nil => exact .nil
  | cons h _ ih => exact all2_append (hf _ _ h) ih

theorem all2_filter {f : α → Bool} {g : β → Bool} {xs ys} (h : All2 R xs ys) (hf : ∀ x y, R x y → f x = g y) :
    All2 R (xs.filter f) (ys.filter g) := by
  induction h with
  | nil => exact .nil
  | cons h _ ih =>
    rw [List.filter_cons, List.filter_cons, hf _ _ h]
    split
    · exact .cons h ih
    · exact ih

theorem all2_drop {xs ys} (h : All2 R xs ys) (n : Nat) : All2 R (xs.drop n) (ys.drop n) := by
  induction h generalizing n with
  | nil => rw [List.drop_nil, List.drop_nil]; exact .nil
  | cons h h' ih =>
    cases n with
    | zero => exact .cons h h'
    | succ n => exact ih n

theorem all2_take {xs ys} (h : All2 R xs ys) (n : Nat) : All2 R (xs.take n) (ys.take n) := by
  induction h generalizing n with
  | nil => rw [List.take_nil, List.take_nil]; exact .nil
  | cons h h' ih =>
    cases n with
    | zero => exact .nil
    | succ n => exact .cons h (ih n)

theorem all2_reverse {xs ys} (h : All2 R xs ys) : All2 R xs.reverse ys.reverse := by
  induction h with
  | nil => exact .nil
  | cons h _ ih =>
    rw [List.reverse_cons, List.reverse_cons]
    exact all2_append ih (.cons h .nil)

theorem all2_replicate {x y} (h : R x y) : ∀ n, All2 R (List.replicate n x) (List.replicate n y)
  | 0 => .nil
  | n + 1 => .cons h (all2_replicate h n)

theorem all2_left {xs ys} (h : All2 R xs ys) : ∀ x ∈ xs, ∃ y ∈ ys, R x y := by
  induction h with
  | nil => intro x hx; cases hx
  | cons h _ ih =>
    intro z hz
    rcases List.mem_cons.1 hz with rfl | hz
    · exact ⟨_, List.mem_cons_self .., h⟩
    · obtain ⟨y, h1, h2⟩ := ih z hz
      exact ⟨y, List.mem_cons_of_mem _ h1, h2⟩

end

theorem under_length :
    (∀ (x : Node) (p : Path), (x.under p).length + 1 = x.count) ∧
    (∀ (xs : List Node) (p : Path) (i : Nat), (Node.underList p i xs).length = Node.countList xs) := by
  apply Node.induct
  case elem => intro n as cs ih p; simp only [Node.under, Node.count, ih]
  case text => intro s p; rfl
  case nil => intro p i; rfl
  case cons =>
    intro x xs ih1 ih2 p i
    simp only [Node.underList, List.length_cons, List.length_append, Node.countList, ih2]
    have := ih1 (p ++ [i])
    omega

theorem count_child : ∀ {cs : List Node} {i : Nat} {y : Node}, cs[i]? = some y → y.count ≤ Node.countList cs
  | [], _, _, h => by simp at h
  | x :: cs, 0, y, h => by
    simp at h; subst h
    simp only [Node.countList]
    omega
  | x :: cs, i + 1, y, h => by
    have := count_child (cs := cs) (i := i) (by simpa using h)
    simp only [Node.countList]
    omega

/-- A node at a position has fewer nodes by at least the length of the position. -/
theorem count_at : ∀ (p : Path) {x y : Node}, x.at? p = some y → y.count + p.length ≤ x.count
  | [], x, y, h => by cases h; simp
  | i :: p, x, y, h => by
    simp only [Node.at?] at h
    cases hc : x.xmlChildren[i]? with
    | none => rw [hc] at h; cases h
    | some z =>
      rw [hc] at h
      have h1 := count_at p h
      cases x with
      | text s => simp [Node.xmlChildren] at hc
      | elem n as cs =>
        have h2 := count_child (cs := cs) hc
        simp only [Node.count, List.length_cons]
        omega

theorem ancestorsOf_snoc (p : Path) (i : Nat) : ancestorsOf (p ++ [i]) = p :: ancestorsOf p := by
  unfold ancestorsOf
  rw [List.length_append, List.length_singleton, List.range_succ, List.reverse_append, List.reverse_singleton,
    List.singleton_append, List.map_cons, List.take_left]
  congr 1
  apply List.map_congr_left
  intro k hk
  rw [List.mem_reverse, List.mem_range] at hk
  rw [List.take_append_of_le_length (by omega)]

theorem allBelow_unique {h : Heap} {cs l : List Id} (h1 : AllBelow h cs l) : ∀ {l'}, AllBelow h cs l' → l = l' := by
  induction h1 with
  | nil => intro l' h2; cases h2; rfl
  | cons _ _ ih1 ih2 =>
    intro l' h2
    cases h2 with
    | cons a b => rw [ih1 a, ih2 b]

theorem walk_allBelow (h : Heap) : ∀ (n : Nat) (cs l : List Id), AllBelow h cs l → l.length ≤ n → Mem.walk h n cs = (l, true)
  | n, [], l, hb, _ => by cases hb; unfold Mem.walk; rfl
  | 0, c :: cs, l, hb, hn => by cases hb; simp at hn
  | n + 1, c :: cs, l, hb, hn => by
    cases hb with
    | cons h1 h2 =>
      simp only [Mem.walk]
      rw [walk_allBelow h n _ _ (allBelow_append h1 h2) (by simpa using hn)]

theorem below_of_allBelow {h : Heap} {cs l : List Id} (hb : AllBelow h cs l) : Below h cs (l.filter h.isElemB) := by
  induction hb with
  | nil => exact .nil
  | @cons c cs l l' h1 _ ih1 ih2 =>
    rw [List.filter_cons, List.filter_append]
    split
    · rename_i he
      exact .elem he ih1 ih2
    · rename_i he
      have hc : h.children c = [] := by
        unfold Heap.children
        simp only [Heap.isElemB] at he
        cases ho : h.obj c with
        | none => rfl
        | some o =>
          cases o with
          | elem => rw [ho] at he; simp at he
          | text => rfl
      rw [hc] at h1
      cases h1
      exact .text (by simpa using he) ih2

section
variable {h : Heap} {t : Id} {doc : Node} (hr : Rep h none t doc)
include hr

theorem node_obj {p : Path} {i : Id} (hl : h.locate t p = some i) :
    (∃ n as ts cs q, doc.at? p = some (.elem n as ts) ∧ h.obj i = some (.elem n as cs q) ∧ cs.Nodup ∧ RepList h i cs ts) ∨
    (∃ s q, doc.at? p = some (.text s) ∧ h.obj i = some (.text s q)) := by
  obtain ⟨s, hs, hrs, _⟩ := locate_rep p hr hl
  cases s with
  | elem n as ts =>
    obtain ⟨cs, q, h1, _, h2, h3⟩ := hrs
    exact .inl ⟨n, as, ts, cs, q, hs, h1, h2, h3⟩
  | text s =>
    obtain ⟨q, h1, _⟩ := hrs
    exact .inr ⟨s, q, hs, h1⟩

theorem located_kids {p : Path} {i : Id} (hl : h.locate t p = some i) {n as ts} (hp : doc.at? p = some (.elem n as ts)) :
    All2 (fun q j => h.locate t q = some j) ((List.range ts.length).map fun j => p ++ [j]) (h.children i) := by
  rcases node_obj hr hl with ⟨n', as', ts', cs, q, h1, h2, _, h4⟩ | ⟨_, _, h1, _⟩
  · rw [hp] at h1; cases h1
    have hc : h.children i = cs := elem_children h2
    refine all2_of_index ?_ ?_
    · rw [hc, ((repList_iff ts cs).1 h4).1]; simp
    · intro j x y hx hy
      have hj : j < ts.length := by
        have := (List.getElem?_eq_some_iff.1 hx).1
        simpa using this
      rw [List.getElem?_map, List.getElem?_range hj] at hx
      cases hx
      rw [locate_kid p hl, hy]
  · rw [hp] at h1; cases h1

omit hr in
theorem located_under :
    (∀ (x : Node) (p : Path) (i : Id) (q : Option Id), Rep h q i x → h.locate t p = some i → ∃ l, AllBelow h (h.children i) l ∧
      All2 (fun q j => h.locate t q = some j) (x.under p) l) ∧
    (∀ (ts : List Node) (p : Path) (n : Nat) (cs : List Id) (par : Id), RepList h par cs ts →
      (∀ j c, cs[j]? = some c → h.locate t (p ++ [n + j]) = some c) → ∃ l, AllBelow h cs l ∧
      All2 (fun q j => h.locate t q = some j) (Node.underList p n ts) l) := by
  apply Node.induct
  case elem =>
    intro n as ts ih p i q hrep hl
    obtain ⟨cs, q, h1, _, _, h4⟩ := hrep
    have hc : h.children i = cs := elem_children h1
    simp only [Node.under]
    rw [hc]
    refine ih p 0 cs i h4 fun j c hj => ?_
    rw [Nat.zero_add, locate_kid p hl, hc, hj]
  case text =>
    intro s p i q hrep _
    obtain ⟨q, h1, _⟩ := hrep
    have hc : h.children i = [] := by simp [Heap.children, h1, Obj.kids]
    rw [hc]
    exact ⟨[], .nil, .nil⟩
  case nil =>
    intro p n cs par hrep _
    cases hrep
    exact ⟨[], .nil, .nil⟩
  case cons =>
    intro x xs ih1 ih2 p n cs par hrep hl
    obtain ⟨c, r, rfl, h1, h2⟩ := hrep
    have hl0 := hl 0 c rfl
    obtain ⟨l, a1, a2⟩ := ih1 (p ++ [n]) c _ h1 hl0
    obtain ⟨l', b1, b2⟩ := ih2 p (n + 1) r par h2 fun j c hj => by
      have := hl (j + 1) c (by simpa using hj)
      rwa [show n + 1 + j = n + (j + 1) by omega]
    exact ⟨c :: (l ++ l'), .cons a1 b1, .cons hl0 (all2_append a2 b2)⟩

theorem parent_snoc {p : Path} {j : Nat} {i : Id} (hl : h.locate t (p ++ [j]) = some i) :
    ∃ e, h.locate t p = some e ∧ (h.children e)[j]? = some i ∧ h.xmlParent i = some e := by
  obtain ⟨e, h1, h2⟩ := locate_split p hl
  obtain ⟨_, _, _, hre⟩ := locate_rep p hr h1
  exact ⟨e, h1, h2, (rep_reach hr hre).2.2 _ (List.mem_of_getElem? h2)⟩

theorem up_located : ∀ (n : Nat) {p : Path} {i : Id}, p.length = n → h.locate t p = some i → upTimes h n i = some t
  | 0, p, i, hn, hl => by
    have : p = [] := List.length_eq_zero_iff.1 hn
    subst this
    cases hl
    rfl
  | n + 1, p, i, hn, hl => by
    obtain ⟨q, j, rfl⟩ : ∃ q j, p = q ++ [j] := by
      rcases List.eq_nil_or_concat p with rfl | ⟨q, j, rfl⟩
      · simp at hn
      · exact ⟨q, j, by simp⟩
    obtain ⟨e, h1, _, h3⟩ := parent_snoc hr hl
    simp only [upTimes, h3, Option.bind_some]
    exact up_located n (by simpa using hn) h1

theorem climb_located : ∀ (n : Nat) {p : Path} {i : Id} (k : Nat), p.length = n → n ≤ k → h.locate t p = some i →
    ∃ l, Mem.climb h k (h.xmlParent i) = (l, true) ∧ All2 (fun q j => h.locate t q = some j) (ancestorsOf p) l
  | 0, p, i, k, hn, hk, hl => by
    have : p = [] := List.length_eq_zero_iff.1 hn
    subst this
    cases hl
    rw [rep_parent hr]
    exact ⟨[], by unfold Mem.climb; rfl, .nil⟩
  | n + 1, p, i, k, hn, hk, hl => by
    obtain ⟨q, j, rfl⟩ : ∃ q j, p = q ++ [j] := by
      rcases List.eq_nil_or_concat p with rfl | ⟨q, j, rfl⟩
      · simp at hn
      · exact ⟨q, j, by simp⟩
    obtain ⟨e, h1, _, h3⟩ := parent_snoc hr hl
    obtain ⟨k, rfl⟩ : ∃ k', k = k' + 1 := ⟨k - 1, by omega⟩
    obtain ⟨l, a1, a2⟩ := climb_located n k (by simpa using hn) (by omega) h1
    rw [h3, ancestorsOf_snoc]
    exact ⟨e :: l, by simp only [Mem.climb, a1], .cons h1 a2⟩

omit hr in
theorem value_rep :
    (∀ (x : Node) (i : Id) (q : Option Id) (n : Nat), Rep h q i x → x.count ≤ n → Mem.value h n i = x.xmlValue) ∧
    (∀ (ts : List Node) (par : Id) (cs : List Id) (n : Nat), RepList h par cs ts → Node.countList ts ≤ n →
      cs.flatMap (Mem.value h n) = Node.xmlValues ts) := by
  apply Node.induct
  case elem =>
    intro n as ts ih i q k hrep hk
    obtain ⟨cs, q, h1, _, _, h4⟩ := hrep
    simp only [Node.count] at hk
    obtain ⟨k, rfl⟩ : ∃ k', k = k' + 1 := ⟨k - 1, by omega⟩
    simp only [Mem.value, h1, Node.xmlValue]
    exact ih i cs k h4 (by omega)
  case text =>
    intro s i q k hrep hk
    obtain ⟨q, h1, _⟩ := hrep
    simp only [Node.count] at hk
    obtain ⟨k, rfl⟩ : ∃ k', k = k' + 1 := ⟨k - 1, by omega⟩
    simp only [Mem.value, h1, Node.xmlValue]
  case nil =>
    intro par cs n hrep _
    cases hrep
    rfl
  case cons =>
    intro x xs ih1 ih2 par cs n hrep hn
    obtain ⟨c, r, rfl, h1, h2⟩ := hrep
    simp only [Node.countList] at hn
    simp only [List.flatMap_cons, Node.xmlValues]
    rw [ih1 c _ n h1 (by omega), ih2 par r n h2 (by omega)]

/-- Where Python finds a child in the list of its parent. -/
theorem index_located {p : Path} {e i : Id} {j : Nat} (hl : h.locate t p = some e) (hc : (h.children e)[j]? = some i) {n as ts}
    (hp : doc.at? p = some (.elem n as ts)) : (h.children e).findIdx? (h.pyEq i) =
      some (((List.range ts.length).find? fun m => sameChild ts m j).getD 0) := by
  rcases node_obj hr hl with ⟨n', as', ts', cs, q, h1, h2, hnd, h4⟩ | ⟨_, _, h1, _⟩
  · rw [hp] at h1; cases h1
    have hcs : h.children e = cs := elem_children h2
    rw [hcs] at hc ⊢
    have hlen := ((repList_iff ts cs).1 h4).1
    have hj : j < cs.length := (List.getElem?_eq_some_iff.1 hc).1
    have hrep := ((repList_iff ts cs).1 h4).2
    have point : ∀ m (hm : m < cs.length), h.pyEq i cs[m] = sameChild ts m j := by
      intro m hm
      have r1 := hrep j i ts[j] hc (List.getElem?_eq_getElem (by omega))
      have r2 := hrep m cs[m] ts[m] (List.getElem?_eq_getElem hm) (List.getElem?_eq_getElem (by omega))
      have e1 : ts[j]? = some ts[j] := List.getElem?_eq_getElem (by omega)
      have e2 : ts[m]? = some ts[m] := List.getElem?_eq_getElem (by omega)
      have hij : (i == cs[m]) = (m == j) := by
        rw [Bool.eq_iff_iff, beq_iff_eq, beq_iff_eq]
        have hi : cs[j] = i := (List.getElem?_eq_some_iff.1 hc).2
        constructor
        · intro he
          rw [← hi] at he
          exact ((List.getElem_inj hnd).1 he).symm
        · rintro rfl; exact hi.symm
      unfold Heap.pyEq sameChild
      rw [hij, e1, e2]
      congr 1
      cases ha : ts[j] with
      | elem a b c =>
        rw [ha] at r1
        obtain ⟨_, _, o1, _⟩ := r1
        rw [o1]
        cases ts[m] <;> rfl
      | text s =>
        rw [ha] at r1
        obtain ⟨_, o1, _⟩ := r1
        rw [o1]
        cases hb : ts[m] with
        | elem a b c =>
          rw [hb] at r2
          obtain ⟨_, _, o2, _⟩ := r2
          rw [o2]
        | text s' =>
          rw [hb] at r2
          obtain ⟨_, o2, _⟩ := r2
          rw [o2]
          simp only []
          rw [Bool.eq_iff_iff, beq_iff_eq, beq_iff_eq]
          exact eq_comm
    have hsome : ((List.range ts.length).find? fun m => sameChild ts m j).isSome = true := by
      rw [List.find?_isSome]
      exact ⟨j, List.mem_range.2 (by omega), by simp [sameChild]⟩
    obtain ⟨ix, hix⟩ := Option.isSome_iff_exists.1 hsome
    rw [hix, Option.getD_some]
    rw [List.find?_range_eq_some] at hix
    obtain ⟨h1, h2, h3⟩ := hix
    rw [List.mem_range] at h2
    rw [List.findIdx?_eq_some_iff_getElem]
    refine ⟨by omega, by rw [point]; exact h1, fun m hm => ?_⟩
    rw [point m (by omega)]
    have := h3 m hm
    simpa using this
  · rw [hp] at h1; cases h1

end
end Amara
