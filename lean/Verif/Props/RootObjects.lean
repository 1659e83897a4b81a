import Verif.Spec.RootObjects
import Verif.Spec.Mutate
/-
C123: documents that are no longer used are freed.  C124: a document has one root node.
-/
namespace Amara

/-! ### C124 -/

theorem ancestors_last {h : Heap} {e : Id} {l : List Id} (ha : Ancestors h e l) : Top h e (l.getLast?.getD e) := by
  induction ha with
  | top hp => exact .root hp
  | @up e p l hp _ ih =>
    refine .up hp ?_
    cases l with
    | nil => exact ih
    | cons q l => simpa [List.getLast?_cons] using ih

theorem climb_ancestors (s : RootStore) {h : Heap} : ∀ {p : Id} {l : List Id}, Ancestors h p l → ∀ (n : Nat) (c : Id), l.length < n →
    s.climb h n c (some p) = some (match firstCached s l with | some r => .inl r | none => .inr (l.getLast?.getD p)) := by
  intro p l ha
  induction ha with
  | @top e hp =>
    intro n c hn
    cases n with
    | zero => simp at hn
    | succ n => rw [RootStore.climb, hp]; rfl
  | @up e p l hp _ ih =>
    intro n c hn
    cases n with
    | zero => simp at hn
    | succ n =>
      rw [RootStore.climb, hp]
      simp only [firstCached]
      cases hf : s.find p with
      | some r => rfl
      | none =>
        simp only
        rw [ih n e (by simpa using hn)]
        cases l <;> simp [List.getLast?_cons]

/-- C124: which root node an absolute path at an element starts from.  If the element itself is in the cache, the one
there; otherwise that of its nearest ancestor in the cache, its own parent left aside; otherwise a new one is made, for
the top of the tree, and kept for this element. -/
theorem C124_exactly (s : RootStore) {h : Heap} {e : Id} {l : List Id} (ha : Ancestors h e l) {n : Nat} (hn : l.length ≤ n) :
    s.get h n e = some (match firstCached s (e :: l.drop 1) with
      | some r => (r, s)
      | none => (⟨s.made, l.getLast?.getD e⟩, ⟨(e, ⟨s.made, l.getLast?.getD e⟩) :: s.cache, s.made + 1⟩)) := by
  rw [RootStore.get]
  simp only [firstCached]
  cases hf : s.find e with
  | some r => rfl
  | none =>
    simp only
    cases ha with
    | top hp => rw [hp, RootStore.climb]; rfl
    | @up _ p l hp ha =>
      rw [hp, climb_ancestors s ha n e (by simp at hn; omega)]
      simp only [List.drop_succ_cons, List.drop_zero]
      cases firstCached s l with
      | some r => rfl
      | none => cases l <;> simp [List.getLast?_cons]

theorem find_mem {s : RootStore} {x : Id} {r : RootObj} (h : s.find x = some r) : (x, r) ∈ s.cache := by
  rw [RootStore.find] at h
  obtain ⟨c, _⟩ := s
  simp only at h ⊢
  induction c with
  | nil => cases h
  | cons y c ih =>
    obtain ⟨y, q⟩ := y
    rw [List.lookup_cons] at h
    by_cases hx : x = y
    · subst hx; simp at h; simp [h]
    · rw [show (x == y) = false from by simpa using hx] at h
      exact List.mem_cons_of_mem _ (ih h)

/-- What `get` does to the cache: nothing, or it adds the element with a new root node. -/
theorem get_cases {s : RootStore} {h : Heap} {n : Nat} {e : Id} {r : RootObj} {s' : RootStore}
    (hg : s.get h n e = some (r, s')) : s' = s ∨
      s.find e = none ∧ s'.cache = (e, r) :: s.cache ∧ r.num = s.made ∧ s.climb h n e (h.xmlParent e) = some (.inr r.doc) := by
  rw [RootStore.get] at hg
  cases hf : s.find e with
  | some q => rw [hf] at hg; cases hg; exact .inl rfl
  | none =>
    rw [hf] at hg
    simp only at hg
    cases hc : s.climb h n e (h.xmlParent e) with
    | none => rw [hc] at hg; cases hg
    | some x =>
      rw [hc] at hg
      cases x with
      | inl q => cases hg; exact .inl rfl
      | inr d => cases hg; exact .inr ⟨rfl, rfl, rfl, rfl⟩

theorem get_keeps {s : RootStore} {h : Heap} {n : Nat} {e : Id} {r : RootObj} {s' : RootStore}
    (hg : s.get h n e = some (r, s')) {x : Id} {q : RootObj} (hx : s.find x = some q) : s'.find x = some q := by
  rcases get_cases hg with rfl | ⟨h1, h2, _⟩
  · exact hx
  · rw [RootStore.find, h2, List.lookup_cons]
    by_cases hxe : x = e
    · subst hxe; rw [h1] at hx; cases hx
    · rw [show (x == e) = false from by simpa using hxe]; exact hx

/-- C124: an element that is in the cache gives the same root node for ever, whatever happens. -/
theorem C124_cached_for_ever {keep : Id → Prop} {h h' : Heap} {s s' : RootStore} (hl : Life keep (h, s) (h', s'))
    {e : Id} {r : RootObj} (hf : s.find e = some r) (n : Nat) : s'.get h' n e = some (r, s') := by
  have key : ∀ w w', Life keep w w' → w.2.find e = some r → w'.2.find e = some r := by
    intro w w' hl
    induction hl with
    | refl => exact id
    | ask _ _ hg ih => exact fun h => get_keeps hg (ih h)
    | work _ _ ih => exact ih
    | collect _ _ _ ih => exact ih
  rw [RootStore.get, key _ _ hl hf]

theorem firstCached_only {s : RootStore} {d : Id} {r : RootObj} (hd : s.find d = some r) :
    ∀ (l : List Id), (∀ x ∈ l, x ≠ d → s.find x = none) → firstCached s l = if d ∈ l then some r else none := by
  intro l
  induction l with
  | nil => intro _; rfl
  | cons x l ih =>
    intro hx
    rw [firstCached]
    by_cases hxd : x = d
    · subst hxd; rw [hd]; simp
    · rw [hx x (by simp) hxd]
      simp only
      rw [ih fun y hy => hx y (by simp [hy])]
      have : d ≠ x := fun h => hxd h.symm
      simp [this]

/-- C124 (partial): once the document element `d` has been asked, and no other element, an absolute path at any element
that is not a child of `d` starts from the root node of `d`; at a child of `d` a second root node of the same document is
made.  Missing: after other elements have been asked, `C124_full_statement_is_false`. -/
theorem C124_document_element_first_partial {s : RootStore} {h : Heap} {d : Id} {r : RootObj} (hd : s.find d = some r)
    (hr : r.doc = d) {e : Id} {l : List Id} (ha : Ancestors h e l) (hl : (e :: l).getLast? = some d)
    (ho : ∀ x ∈ e :: l, x ≠ d → s.find x = none) {n : Nat} (hn : l.length ≤ n) :
    (l ≠ [d] → s.get h n e = some (r, s)) ∧
    (l = [d] → e ≠ d → s.get h n e = some (⟨s.made, d⟩, ⟨(e, ⟨s.made, d⟩) :: s.cache, s.made + 1⟩)) := by
  have hsub : ∀ x ∈ e :: l.drop 1, x ∈ e :: l := by
    intro x hx
    rcases List.mem_cons.1 hx with rfl | hx
    · simp
    · exact List.mem_cons_of_mem _ (List.mem_of_mem_drop hx)
  have hfc := firstCached_only hd (e :: l.drop 1) (fun x hx => ho x (hsub x hx))
  constructor
  · intro hne
    rw [C124_exactly s ha hn, hfc, if_pos ?_]
    cases l with
    | nil => simp at hl; simp [hl]
    | cons p l =>
      cases l with
      | nil => simp at hl; subst hl; exact (hne rfl).elim
      | cons q l =>
        rw [List.getLast?_cons_cons, List.getLast?_cons_cons] at hl
        exact List.mem_cons_of_mem _ (List.mem_of_getLast? hl)
  · rintro rfl hne
    rw [C124_exactly s ha hn, hfc, if_neg (by simpa using fun h => hne h.symm)]
    rfl

/-- `<d><a><b><c/></b></a></d>`. -/
def exChain : Heap := ⟨4, fun i => if i = 0 then some (.elem ['d'] [] [1] none)
  else if i = 1 then some (.elem ['a'] [] [2] (some 0)) else if i = 2 then some (.elem ['b'] [] [3] (some 1))
  else if i = 3 then some (.elem ['c'] [] [] (some 2)) else none⟩

theorem exChain_ancestors : Ancestors exChain 0 [] ∧ Ancestors exChain 1 [0] ∧ Ancestors exChain 3 [2, 1, 0] :=
  ⟨.top rfl, .up rfl (.top rfl), .up rfl (.up rfl (.up rfl (.top rfl)))⟩

/-- C124 as stated is false: `/` is asked at `d`, at `c`, at `a` and at `c` again, and nothing is changed; `c` gives one
root node the first time and another one the second time. -/
theorem C124_full_statement_is_false : ∃ (s1 s2 s3 : RootStore) (r1 r2 : RootObj),
    RootStore.get ⟨[], 0⟩ exChain 9 0 = some (r1, s1) ∧ s1.get exChain 9 3 = some (r1, s2) ∧
    s2.get exChain 9 1 = some (r2, s3) ∧ s3.get exChain 9 3 = some (r2, s3) ∧ r1.num ≠ r2.num ∧ r1.doc = r2.doc :=
  ⟨⟨[(0, ⟨0, 0⟩)], 1⟩, ⟨[(0, ⟨0, 0⟩)], 1⟩, ⟨[(1, ⟨1, 0⟩), (0, ⟨0, 0⟩)], 2⟩, ⟨0, 0⟩, ⟨1, 0⟩, rfl, rfl, rfl, rfl, by decide, rfl⟩

/-! ### C123 -/

theorem store_climb_top {s : RootStore} {h : Heap} {d : Id} : ∀ (n : Nat) (c p : Id), Top h p d →
    (∀ d', s.climb h n c (some p) = some (.inr d') → d' = d) ∧
    ∀ r, s.climb h n c (some p) = some (.inl r) → ∃ q, s.find q = some r ∧ Top h q d := by
  intro n
  induction n with
  | zero => intro c p _; constructor <;> (intro x hx; cases hx)
  | succ n ih =>
    intro c p ht
    rw [RootStore.climb]
    cases ht with
    | root hp =>
      rw [hp]
      exact ⟨fun d' hd => by cases hd; rfl, fun r hr => by cases hr⟩
    | @up _ q _ hp ht =>
      rw [hp]
      simp only
      cases hf : s.find q with
      | some r => exact ⟨fun d' hd => (by cases hd), fun r' hr => (by cases hr; exact ⟨q, hf, ht⟩)⟩
      | none => exact ih p q ht

theorem store_climb_top' {s : RootStore} {h : Heap} {d e : Id} (ht : Top h e d) (n : Nat) :
    (∀ d', s.climb h n e (h.xmlParent e) = some (.inr d') → d' = d) ∧
    ∀ r, s.climb h n e (h.xmlParent e) = some (.inl r) → ∃ q, s.find q = some r ∧ Top h q d := by
  cases ht with
  | root hp =>
    rw [hp]
    constructor
    · intro d' hd
      rw [RootStore.climb] at hd
      cases hd; rfl
    · intro r hr
      rw [RootStore.climb] at hr
      cases hr
  | @up _ p _ hp ht => rw [hp]; exact store_climb_top n e p ht

/-- C123: asking an absolute path at one element of a document keeps the whole document for ever: whatever the program
asks, does elsewhere and lets go of, and whenever the collector runs, every object of the document is still there. -/
theorem C123_asked_is_kept {h : Heap} {s : RootStore} {n : Nat} {e d : Id} {r : RootObj} {s' : RootStore} (ht : Top h e d)
    (hright : ∀ x q, s.find x = some q → Top h x d → q.doc = d) (hg : s.get h n e = some (r, s'))
    {h2 : Heap} {s2 : RootStore} (hl : Life (fun i => Reachable h [d] i) (h, s') (h2, s2)) :
    ∀ i, Reachable h [d] i → h2.obj i = h.obj i := by
  have h0 : ∃ x q, s'.find x = some q ∧ q.doc = d := by
    rw [RootStore.get] at hg
    cases hf : s.find e with
    | some q => rw [hf] at hg; cases hg; exact ⟨e, r, hf, hright e r hf ht⟩
    | none =>
      rw [hf] at hg
      simp only at hg
      cases hc : s.climb h n e (h.xmlParent e) with
      | none => rw [hc] at hg; cases hg
      | some x =>
        rw [hc] at hg
        cases x with
        | inl q =>
          cases hg
          obtain ⟨x, h1, h2⟩ := (store_climb_top' ht n).2 _ hc
          exact ⟨x, _, h1, hright x _ h1 h2⟩
        | inr d' =>
          cases hg
          have := (store_climb_top' ht n).1 _ hc
          subst this
          exact ⟨e, ⟨s.made, d'⟩, by rw [RootStore.find, List.lookup_cons]; simp, rfl⟩
  have key : ∀ w w', Life (fun i => Reachable h [d] i) w w' → w = (h, s') →
      (∃ x q, w'.2.find x = some q ∧ q.doc = d) ∧ ∀ i, Reachable h [d] i → w'.1.obj i = h.obj i := by
    intro w w' hl
    induction hl with
    | refl => rintro rfl; exact ⟨h0, fun _ _ => rfl⟩
    | ask _ _ hg ih =>
      intro hw
      obtain ⟨⟨x, q, h1, h2⟩, h3⟩ := ih hw
      exact ⟨⟨x, q, get_keeps hg h1, h2⟩, h3⟩
    | work _ hk ih =>
      intro hw
      obtain ⟨h1, h3⟩ := ih hw
      exact ⟨h1, fun i hi => (hk i hi).trans (h3 i hi)⟩
    | @collect h1 s1 h3 held _ hc ih =>
      intro hw
      obtain ⟨⟨x, q, e1, e2⟩, e3⟩ := ih hw
      refine ⟨⟨x, q, e1, e2⟩, fun i hi => ?_⟩
      have hre : ∀ k, Reachable h [d] k → Reachable h1 (held ++ s1.refs) k := by
        intro k hk
        induction hk with
        | root hm =>
          rw [List.mem_singleton] at hm
          subst hm
          exact .root (List.mem_append_right _ (List.mem_append_right _ (List.mem_map.2 ⟨_, find_mem e1, e2⟩)))
        | @child a c ha hac ih =>
          refine .child ih ?_
          rw [Heap.children, e3 a ha]
          exact hac
      rcases hc.2 i with h4 | ⟨_, h4⟩
      · exact h4.trans (e3 i hi)
      · exact (h4 (hre i hi)).elim
  exact (key _ _ hl rfl).2

/-- C123: what asking adds to the elements that the cache refers to: at most the element and the top of its tree. -/
theorem C123_what_asking_adds {h : Heap} {s : RootStore} {n : Nat} {e d : Id} {r : RootObj} {s' : RootStore} (ht : Top h e d)
    (hg : s.get h n e = some (r, s')) : ∀ x ∈ s'.refs, x ∈ s.refs ∨ x = e ∨ x = d := by
  intro x hx
  rcases get_cases hg with rfl | ⟨_, h2, _, h4⟩
  · exact .inl hx
  · rw [RootStore.refs, h2] at hx
    have := (store_climb_top' ht n).1 _ h4
    simp only [List.map_cons, List.mem_append, List.mem_cons] at hx
    rw [RootStore.refs, List.mem_append]
    rcases hx with (hx | hx) | (hx | hx)
    · exact .inr (.inl hx)
    · exact .inl (.inl hx)
    · exact .inr (.inr (hx.trans this))
    · exact .inl (.inr hx)

/-- C123 (partial): a document that the cache does not refer to (it has not been asked) goes completely in a full
collection once the program holds nothing of it.  Missing: documents that have been asked, `C123_asked_is_kept`. -/
theorem C123_not_asked_is_freed_partial {h h' : Heap} (hc : Consistent h) {s : RootStore} {d : Id} (hd : h.xmlParent d = none)
    (held : List Id) (hno : ∀ x ∈ held ++ s.refs, ¬ Top h x d) (hf : CollectedAll (held ++ s.refs) h h') :
    ∀ i, Reachable h [d] i → h'.obj i = none := by
  have hpar : ∀ e c, c ∈ h.children e → h.xmlParent c = some e := by
    intro e c hce
    have : (h.obj e).isSome := by
      cases ho : h.obj e with
      | none => simp [Heap.children, ho] at hce
      | some o => rfl
    exact (((hc e this).2 c).1 hce).2
  have h1 : ∀ i, Reachable h [d] i → Top h i d := by
    intro i hi
    induction hi with
    | root hm => rw [List.mem_singleton] at hm; subst hm; exact .root hd
    | child _ hac ih => exact .up (hpar _ _ hac) ih
  have h2 : ∀ i, Reachable h (held ++ s.refs) i → ¬ Top h i d := by
    intro i hi
    induction hi with
    | root hm => exact hno _ hm
    | @child a c _ hac ih =>
      intro ht
      cases ht with
      | root hp => rw [hpar _ _ hac] at hp; cases hp
      | up hp ht =>
        rw [hpar _ _ hac] at hp
        cases hp
        exact ih ht
  exact fun i hi => hf.2 i fun hr => h2 i hr (h1 i hi)

/-- C123 as stated is false, without bound: of `k` documents that were made, asked and let go of one after the other, with
a full collection after each, all are still in memory. -/
theorem C123_full_statement_is_false {k : Nat} {h : Heap} {s : RootStore} (hv : Visited k (h, s)) :
    ∃ ids : List Id, ids.length = k ∧ ids.Nodup ∧ ∀ i ∈ ids, (h.obj i).isSome := by
  suffices hs : ∀ w, Visited k w → ∃ ids : List Id, ids.length = k ∧ ids.Nodup ∧
      ∀ i ∈ ids, (w.1.obj i).isSome ∧ i < w.1.next ∧ i ∈ w.2.refs by
    obtain ⟨ids, h1, h2, h3⟩ := hs _ hv
    exact ⟨ids, h1, h2, fun i hi => (h3 i hi).1⟩
  clear hv
  intro w hv
  induction hv with
  | start => exact ⟨[], rfl, List.nodup_nil, fun i hi => by cases hi⟩
  | @next k h s n r s' h' name as _ hg hf ih =>
    obtain ⟨ids, h1, h2, h3⟩ := ih
    have hnew : h.next ∈ s'.refs := by
      rcases get_cases hg with rfl | ⟨_, e2, _⟩
      · rw [RootStore.get] at hg
        cases hfd : s'.find (h.newElement name as).1 with
        | some q => exact List.mem_append_left _ (List.mem_map.2 ⟨_, find_mem hfd, rfl⟩)
        | none =>
          rw [hfd] at hg
          have hp : (h.newElement name as).2.xmlParent (h.newElement name as).1 = none := by
            simp [Heap.newElement, Heap.xmlParent, Heap.alloc, Heap.set, Heap.deref, Obj.link]
          rw [hp] at hg
          simp only at hg
          have hcl : s'.climb (h.newElement name as).2 n (h.newElement name as).1 none = some (.inr (h.newElement name as).1) := by
            cases n <;> rfl
          rw [hcl] at hg
          simp only [Option.some.injEq, Prod.mk.injEq] at hg
          have := congrArg RootStore.made hg.2
          simp at this
      · rw [RootStore.refs, e2]; simp [Heap.newElement]
    have hkeep : ∀ i, i ∈ s'.refs → h'.obj i = (h.newElement name as).2.obj i := by
      intro i hi
      rcases hf.1.2 i with e | ⟨_, e⟩
      · exact e
      · exact (e (.root hi)).elim
    have hrefs : ∀ i ∈ s.refs, i ∈ s'.refs := by
      rcases get_cases hg with rfl | ⟨_, e2, _⟩
      · exact fun i hi => hi
      · intro i hi
        rw [RootStore.refs, e2]
        rw [RootStore.refs, List.mem_append] at hi
        rcases hi with hi | hi
        · exact List.mem_append_left _ (List.mem_cons_of_mem _ hi)
        · exact List.mem_append_right _ (List.mem_cons_of_mem _ hi)
    have hnext : h'.next = h.next + 1 := hf.1.1
    refine ⟨h.next :: ids, by simp [h1], ?_, ?_⟩
    · rw [List.nodup_cons]
      exact ⟨fun hm => Nat.lt_irrefl _ (h3 _ hm).2.1, h2⟩
    · intro i hi
      simp only at h3 ⊢
      rcases List.mem_cons.1 hi with rfl | hi
      · refine ⟨?_, (by rw [hnext]; exact Nat.lt_succ_self _), hnew⟩
        rw [hkeep _ hnew]
        simp [Heap.newElement, Heap.alloc, Heap.set]
      · obtain ⟨e1, e2, e3⟩ := h3 i hi
        refine ⟨?_, (by rw [hnext]; exact Nat.lt_succ_of_lt e2), hrefs i e3⟩
        rw [hkeep _ (hrefs i e3)]
        simp only [Heap.newElement, Heap.alloc, Heap.set]
        split
        · rfl
        · exact e1

/-- There are such histories of any length. -/
theorem C123_visited_exists : ∀ k : Nat, ∃ h s, Visited k (h, s) := by
  intro k
  induction k with
  | zero => exact ⟨_, _, .start⟩
  | succ k ih =>
    obtain ⟨h, s, hv⟩ := ih
    have hp : (h.newElement ['a'] []).2.xmlParent (h.newElement ['a'] []).1 = none := by
      simp [Heap.newElement, Heap.xmlParent, Heap.alloc, Heap.set, Heap.deref, Obj.link]
    obtain ⟨r, s', hg⟩ : ∃ r s', s.get (h.newElement ['a'] []).2 0 (h.newElement ['a'] []).1 = some (r, s') := by
      rw [C124_exactly s (.top hp) (n := 0) (Nat.le_refl 0)]
      exact ⟨_, _, rfl⟩
    open Classical in
    exact ⟨⟨h.next + 1, fun i => if Reachable (h.newElement ['a'] []).2 s'.refs i then (h.newElement ['a'] []).2.obj i else none⟩,
      s', .next ['a'] [] hv hg ⟨⟨rfl, fun i => by
        by_cases hi : Reachable (h.newElement ['a'] []).2 s'.refs i
        · exact .inl (if_pos hi)
        · exact .inr ⟨if_neg hi, hi⟩⟩, fun i hi => if_neg hi⟩⟩

/-- A document asked at an inner element, and another one that was not. -/
example : Top exChain 3 0 ∧ (∃ r s', RootStore.get ⟨[], 0⟩ exChain 9 3 = some (r, s') ∧ s'.refs = [3, 0]) ∧
    (∀ x q, RootStore.find ⟨[], 0⟩ x = some q → Top exChain x 0 → q.doc = 0) ∧ Reachable exChain [0] 3 :=
  ⟨.up rfl (.up rfl (.up rfl (.root rfl))), ⟨_, _, rfl, rfl⟩, fun x q h => (by cases h),
    .child (i := 2) (.child (i := 1) (.child (i := 0) (.root (by simp)) (by decide)) (by decide)) (by decide)⟩

end Amara
