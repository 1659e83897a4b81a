import Verif.Props.Html5
/-
Lemmas for the properties of the HTML tree adapter: what one insertion does to lists and links.
-/
namespace Amara

/-- An insertion, as far as lists and links go. -/
structure Inserted (h h' : Heap) (e c : Id) (child : Child) (k : Nat) : Prop where
  list : h'.children e = (h.children e).take k ++ c :: (h.children e).drop k
  others : ∀ j, j ≠ e → h'.children j = h.children j
  parent : h'.xmlParent c = some e
  parents : ∀ j, j ≠ c → h'.xmlParent j = h.xmlParent j
  what : (h.obj c = none ∧ (∃ s, IsString h child s ∧ h'.obj c = some (.text s (some e)))) ∨
    (child = .node c ∧ h.isElem c)
  alive : ∀ j, (h.obj j).isSome → (h'.obj j).isSome
  elems : ∀ j, h'.isElem j ↔ h.isElem j
  texts : ∀ j s p, h.obj j = some (.text s p) → h'.obj j = some (.text s p)

theorem next_free {h : Heap} (hb : Bounded h) : h.obj h.next = none := by
  cases hx : h.obj h.next with
  | none => rfl
  | some o' => exact absurd (hb _ _ hx).1 (Nat.lt_irrefl _)

theorem inserted_str {h h' : Heap} {e : Id} {s : Str} {i : Int} (hb : Bounded h)
    (hok : h.xmlInsert e (.str s) i = .ok h') {child : Child} (hs : IsString h child s) :
    ∃ k, Inserted h h' e h.next child k := by
  obtain ⟨n, as, cs, p, k, he, hnew, hne, hobj⟩ := insert_str_obj hb hok
  have hce : h.children e = cs := by simp [Heap.children, he, Obj.kids]
  have hne' : ¬ h.next = e := fun x => hne x.symm
  have hch : ∀ j, j ≠ e → h'.children j = h.children j := by
    intro j hj
    simp only [Heap.children, hobj, if_neg hj]
    split
    · rename_i hj'; rw [hj', hnew]; rfl
    · rfl
  have hal : ∀ j, (h.obj j).isSome → (h'.obj j).isSome := by
    intro j hj; rw [hobj]; split
    · rfl
    · split
      · rfl
      · exact hj
  refine ⟨k, ?_, hch, ?_, ?_, Or.inl ⟨hnew, s, hs, by rw [hobj, if_neg hne', if_pos rfl]⟩, hal, ?_, ?_⟩
  · rw [hce]; simp [Heap.children, hobj, Obj.kids]
  · exact xmlParent_eq_some.2 ⟨_, by rw [hobj, if_neg hne', if_pos rfl], rfl, by rw [hobj, if_pos rfl]; rfl⟩
  · intro j hj
    have hl : (h'.obj j).bind Obj.link = (h.obj j).bind Obj.link := by
      rw [hobj]; split
      · rename_i hje; rw [hje, he]; rfl
      · rfl
    unfold Heap.xmlParent
    rw [hl]
    cases hq : (h.obj j).bind Obj.link with
    | none => rfl
    | some q =>
      have hqn : q ≠ h.next := by
        obtain ⟨o, ho, hoq⟩ := Option.bind_eq_some_iff.1 hq
        exact Nat.ne_of_lt ((hb _ _ ho).2 q hoq)
      simp only [Heap.deref, hobj]
      by_cases hqe : q = e
      · rw [if_pos hqe, hqe, he]; rfl
      · rw [if_neg hqe, if_neg hqn]
  · intro j
    unfold Heap.isElem
    rw [hobj]
    by_cases hje : j = e
    · rw [if_pos hje, hje, he]; simp
    · rw [if_neg hje]
      by_cases hjn : j = h.next
      · rw [if_pos hjn, hjn, hnew]; simp
      · rw [if_neg hjn]
  · intro j s' p' hj
    rw [hobj]
    by_cases hje : j = e
    · rw [hje, he] at hj; cases hj
    · rw [if_neg hje]
      by_cases hjn : j = h.next
      · rw [hjn, hnew] at hj; cases hj
      · rw [if_neg hjn, hj]

theorem insert_elem_obj {h h' : Heap} {e d : Id} {i : Int} (hd : h.isElem d)
    (hok : h.xmlInsert e (.node d) i = .ok h') :
    ∃ n as cs p n' as' cs' p' k, h.obj e = some (.elem n as cs p) ∧ h.obj d = some (.elem n' as' cs' p') ∧
      ∀ j, h'.obj j = if j = e then some (.elem n as (cs.take k ++ d :: cs.drop k) (if d = e then some e else p))
        else if j = d then some (.elem n' as' cs' (some e)) else h.obj j := by
  obtain ⟨n, as, cs, p, c, h1, he, ha, rfl⟩ := insert_spec hok
  obtain ⟨n', as', cs', q, hd⟩ := hd
  simp only [Heap.attach, hd, Option.some.injEq, Prod.mk.injEq] at ha
  obtain ⟨rfl, rfl⟩ := ha
  have he1 : (h.set d (.elem n' as' cs' (some e))).obj e = some (.elem n as cs (if d = e then some e else p)) := by
    rw [Heap.set_obj']
    by_cases hde : e = d
    · subst hde; rw [he] at hd; cases hd; simp
    · rw [if_neg hde, if_neg (fun x => hde x.symm), he]
  have hce1 : (h.set d (.elem n' as' cs' (some e))).children e = cs := by simp [Heap.children, he1, Obj.kids]
  rw [hce1]
  refine ⟨n, as, cs, p, n', as', cs', q, insertPos cs.length i, he, hd, fun j => ?_⟩
  rw [setChildren_obj he1, Heap.set_obj']

theorem inserted_elem {h h' : Heap} {e d : Id} {i : Int} (hd : h.isElem d)
    (hok : h.xmlInsert e (.node d) i = .ok h') : ∃ k, Inserted h h' e d (.node d) k := by
  have hd0 := hd
  obtain ⟨n, as, cs, p, n', as', cs', p', k, he, hd, hobj⟩ := insert_elem_obj hd hok
  have hce : h.children e = cs := by simp [Heap.children, he, Obj.kids]
  have hal : ∀ j, (h'.obj j).isSome = (h.obj j).isSome := by
    intro j; rw [hobj]
    by_cases hje : j = e
    · rw [if_pos hje, hje, he]; rfl
    · rw [if_neg hje]
      by_cases hjd : j = d
      · rw [if_pos hjd, hjd, hd]; rfl
      · rw [if_neg hjd]
  refine ⟨k, ?_, ?_, ?_, ?_, Or.inr ⟨rfl, hd0⟩, fun j hj => by rw [hal]; exact hj, ?_, ?_⟩
  · rw [hce]; simp [Heap.children, hobj, Obj.kids]
  · intro j hj
    simp only [Heap.children, hobj, if_neg hj]
    by_cases hjd : j = d
    · rw [if_pos hjd, hjd, hd]; rfl
    · rw [if_neg hjd]
  · by_cases hde : d = e
    · exact xmlParent_eq_some.2 ⟨_, by rw [hobj, if_pos hde], by simp [Obj.link, hde], by rw [hobj, if_pos rfl]; rfl⟩
    · exact xmlParent_eq_some.2 ⟨_, by rw [hobj, if_neg hde, if_pos rfl], rfl, by rw [hobj, if_pos rfl]; rfl⟩
  · intro j hj
    have hl : (h'.obj j).bind Obj.link = (h.obj j).bind Obj.link := by
      rw [hobj]; split
      · rename_i hje
        have : ¬ d = e := fun x => hj (by rw [x, hje])
        rw [hje, he, if_neg this]; rfl
      · rfl
    unfold Heap.xmlParent
    rw [hl]
    cases (h.obj j).bind Obj.link with
    | none => rfl
    | some q => simp only [Heap.deref, hal]
  · intro j
    unfold Heap.isElem
    rw [hobj]
    by_cases hje : j = e
    · rw [if_pos hje, hje, he]; simp
    · rw [if_neg hje]
      by_cases hjn : j = d
      · rw [if_pos hjn, hjn, hd]; simp
      · rw [if_neg hjn]
  · intro j s' p' hj
    rw [hobj]
    by_cases hje : j = e
    · rw [hje, he] at hj; cases hj
    · rw [if_neg hje]
      by_cases hjn : j = d
      · rw [hjn, hd] at hj; cases hj
      · rw [if_neg hjn, hj]

/-- Any insertion. -/
theorem inserted {h h' : Heap} (hb : Bounded h) {e : Id} {child : Child} {i : Int}
    (hok : h.xmlInsert e child i = .ok h') : ∃ c k, Inserted h h' e c child k := by
  cases child with
  | str s =>
    obtain ⟨k, hk⟩ := inserted_str hb hok (Or.inl rfl)
    exact ⟨_, k, hk⟩
  | node d =>
    cases hd : h.obj d with
    | none =>
      simp only [Heap.xmlInsert, Heap.attach, hd] at hok
      split at hok <;> cases hok
    | some o =>
      cases o with
      | text s p =>
        have : h.xmlInsert e (.str s) i = .ok h' := by
          rw [← hok]; simp only [Heap.xmlInsert, Heap.attach, hd]
        obtain ⟨k, hk⟩ := inserted_str hb this (child := .node d) (Or.inr ⟨d, p, rfl, hd⟩)
        exact ⟨_, k, hk⟩
      | elem n as cs p =>
        obtain ⟨k, hk⟩ := inserted_elem ⟨_, _, _, _, hd⟩ hok
        exact ⟨_, k, hk⟩

theorem appended {h h' : Heap} (hb : Bounded h) {e : Id} {child : Child}
    (hok : h.xmlAppend e child = .ok h') : ∃ c, Inserted h h' e c child (h.children e).length := by
  obtain ⟨c, k, hk⟩ := inserted hb hok
  obtain ⟨c', h1, -⟩ := C25_append_is_last hok hb
  refine ⟨c, ?_, hk.others, hk.parent, hk.parents, hk.what, hk.alive, hk.elems, hk.texts⟩
  have hl := hk.list
  rw [h1] at hl
  have hp := perm_insert (h.children e) k c
  rw [← hl] at hp
  have hc := hp.count_eq c
  have : c' = c := by
    apply Classical.byContradiction
    intro hne
    rw [List.count_append, List.count_cons_self, List.count_cons_of_ne (by simpa using hne)] at hc
    simp at hc
  rw [h1, this]; simp

/-! ### a list of nodes -/

/-- Many nodes appended. -/
structure AppendedAll (h h' : Heap) (e : Id) (cs : List HChild) (xs : List Id) : Prop where
  list : h'.children e = h.children e ++ xs
  stand : StandAs h h' e cs xs
  others : ∀ j, j ≠ e → h'.children j = h.children j
  parents : ∀ j, j ∉ xs → h'.xmlParent j = h.xmlParent j
  parent : ∀ j, h.xmlParent j = some e → h'.xmlParent j = some e
  alive : ∀ j, (h.obj j).isSome → (h'.obj j).isSome
  elems : ∀ j, h'.isElem j ↔ h.isElem j
  texts : ∀ j s p, h.obj j = some (.text s p) → h'.obj j = some (.text s p)

theorem standsAs_of_inserted {h h' : Heap} {e c : Id} {child : HChild} {k : Nat}
    (hi : Inserted h h' e c child.child k) : StandsAs h h' e child c := by
  refine ⟨hi.parent, ?_⟩
  cases child with
  | node d =>
    rcases hi.what with ⟨h1, s, hs, h2⟩ | ⟨h1, h2⟩
    · rcases hs with hs | ⟨d', p, hs, ho⟩
      · cases hs
      · cases hs
        refine ⟨fun ⟨_, _, _, _, he⟩ => absurd (ho.symm.trans he) (by simp), fun s' p' ho' => ?_⟩
        rw [ho] at ho'; cases ho'; exact ⟨h1, h2⟩
    · cases h1
      refine ⟨fun _ => rfl, fun s p ho => ?_⟩
      obtain ⟨_, _, _, _, he⟩ := h2
      rw [ho] at he; cases he
  | str s =>
    rcases hi.what with ⟨h1, s', hs, h2⟩ | ⟨h1, h2⟩
    · rcases hs with hs | ⟨d', p, hs, ho⟩
      · cases hs; exact ⟨h1, h2⟩
      · cases hs
    · cases h1
  | comment s =>
    rcases hi.what with ⟨h1, s', hs, h2⟩ | ⟨h1, h2⟩
    · rcases hs with hs | ⟨d', p, hs, ho⟩
      · cases hs; exact ⟨h1, h2⟩
      · cases hs
    · cases h1

theorem none_back {h h' : Heap} (ha : ∀ j, (h.obj j).isSome → (h'.obj j).isSome) {j : Id} (hn : h'.obj j = none) :
    h.obj j = none := by
  cases hx : h.obj j with
  | none => rfl
  | some o => have := ha j (by rw [hx]; rfl); rw [hn] at this; cases this

theorem appendedAll {e : Id} {cs : List HChild} : ∀ {h h' : Heap}, Bounded h → h.appendAll e cs = .ok h' →
    ∃ xs, AppendedAll h h' e cs xs := by
  induction cs with
  | nil =>
    intro h h' hb hok
    cases hok
    exact ⟨[], by simp, .nil, fun _ _ => rfl, fun _ _ => rfl, fun _ h => h, fun _ h => h, fun _ => Iff.rfl,
      fun _ _ _ h => h⟩
  | cons c cs ih =>
    intro h h' hb hok
    simp only [Heap.appendAll] at hok
    cases hc : h.xmlAppend e c.child with
    | error x => rw [hc] at hok; cases hok
    | ok h1 =>
      rw [hc] at hok
      obtain ⟨x, hx⟩ := appended hb hc
      obtain ⟨xs, hxs⟩ := ih (bounded_insert hb hc) hok
      have hs := standsAs_of_inserted hx
      refine ⟨x :: xs, ?_, ?_, ?_, ?_, ?_, ?_, ?_, ?_⟩
      · rw [hxs.list, hx.list]; simp
      · refine .cons ⟨hxs.parent _ hs.1, ?_⟩ ?_
        · cases c with
          | node d => exact ⟨hs.2.1, fun s p ho => ⟨(hs.2.2 s p ho).1, hxs.texts _ _ _ (hs.2.2 s p ho).2⟩⟩
          | str s => exact ⟨hs.2.1, hxs.texts _ _ _ hs.2.2⟩
          | comment s => exact ⟨hs.2.1, hxs.texts _ _ _ hs.2.2⟩
        · have := hxs.stand
          clear hxs ih hok
          induction this with
          | nil => exact .nil
          | @cons c' cs' y ys hy _ ih =>
            refine .cons ⟨hy.1, ?_⟩ ih
            have hy2 := hy.2
            cases c' with
            | node d => exact ⟨fun hd => hy2.1 ((hx.elems d).2 hd), fun s p ho =>
                ⟨none_back hx.alive (hy2.2 s p (hx.texts _ _ _ ho)).1, (hy2.2 s p (hx.texts _ _ _ ho)).2⟩⟩
            | str s => exact ⟨none_back hx.alive hy2.1, hy2.2⟩
            | comment s => exact ⟨none_back hx.alive hy2.1, hy2.2⟩
      · intro j hj; rw [hxs.others j hj, hx.others j hj]
      · intro j hj
        simp only [List.mem_cons, not_or] at hj
        rw [hxs.parents j hj.2, hx.parents j hj.1]
      · intro j hj
        apply hxs.parent
        by_cases hjx : j = x
        · rw [hjx]; exact hx.parent
        · rw [hx.parents j hjx]; exact hj
      · exact fun j hj => hxs.alive j (hx.alive j hj)
      · exact fun j => (hxs.elems j).trans (hx.elems j)
      · exact fun j s p hj => hxs.texts _ _ _ (hx.texts _ _ _ hj)

theorem appendAll_total {e : Id} {cs : List HChild} : ∀ {h : Heap}, Bounded h → h.isElem e →
    (∀ k, .node k ∈ cs → (h.obj k).isSome) → ∃ h', h.appendAll e cs = .ok h' := by
  induction cs with
  | nil => intro h _ _ _; exact ⟨h, rfl⟩
  | cons c cs ih =>
    intro h hb he hc
    obtain ⟨h1, h1ok⟩ := insert_total he (c := c.child) (i := -1) (by
      intro k hk
      apply hc k
      cases c with
      | node d => cases hk; simp
      | str s => cases hk
      | comment s => cases hk)
    obtain ⟨x, hx⟩ := appended hb h1ok
    obtain ⟨h', h'ok⟩ := ih (bounded_insert hb h1ok) ((hx.elems e).2 he)
      (fun k hk => hx.alive k (hc k (List.mem_cons_of_mem _ hk)))
    refine ⟨h', ?_⟩
    have : h.xmlAppend e c.child = .ok h1 := h1ok
    simp only [Heap.appendAll, this]
    exact h'ok

/-! ### a new child list -/

theorem setChildren_links {h : Heap} {e : Id} (he : h.isElem e) (cs : List Id) :
    (h.setChildren e cs).children e = cs ∧ (∀ j, j ≠ e → (h.setChildren e cs).obj j = h.obj j) ∧
    (∀ j, (h.setChildren e cs).xmlParent j = h.xmlParent j) ∧
    (∀ j, ((h.setChildren e cs).obj j).isSome = (h.obj j).isSome) ∧
    (∀ j, (h.setChildren e cs).isElem j ↔ h.isElem j) ∧
    (∀ j s p, h.obj j = some (.text s p) → (h.setChildren e cs).obj j = some (.text s p)) := by
  obtain ⟨n, as, ds, p, he⟩ := he
  have hobj := fun k => setChildren_obj he cs k
  have hsome : ∀ k, ((h.setChildren e cs).obj k).isSome = (h.obj k).isSome := by
    intro k; rw [hobj]; split
    · rename_i hk; rw [hk, he]; rfl
    · rfl
  refine ⟨?_, fun j hj => by rw [hobj, if_neg hj], fun k => ?_, hsome, fun j => ?_, fun j s q hj => ?_⟩
  · simp [Heap.children, hobj, Obj.kids]
  · unfold Heap.xmlParent
    have hl : ((h.setChildren e cs).obj k).bind Obj.link = (h.obj k).bind Obj.link := by
      rw [hobj]; split
      · rename_i hk; rw [hk, he]; rfl
      · rfl
    rw [hl]
    cases (h.obj k).bind Obj.link with
    | none => rfl
    | some j => simp only [Heap.deref, hsome]
  · unfold Heap.isElem
    rw [hobj]
    by_cases hje : j = e
    · rw [if_pos hje, hje, he]; simp
    · rw [if_neg hje]
  · rw [hobj]
    by_cases hje : j = e
    · rw [hje, he] at hj; cases hj
    · rw [if_neg hje, hj]

/-! ### what is listed exists -/

/-- Everything listed exists. -/
def ListedLive (h : Heap) : Prop := ∀ e c, c ∈ h.children e → (h.obj c).isSome

theorem live_alloc {h : Heap} (hb : Bounded h) (hl : ListedLive h) (o : Obj) (ho : o.kids = []) :
    ListedLive (h.alloc o) := by
  intro e c hc
  have hn := next_free hb
  simp only [Heap.children, Heap.alloc_obj'] at hc
  rw [Heap.alloc_obj']
  split
  · rfl
  · split at hc
    · simp [ho] at hc
    · exact hl e c hc

theorem mem_inserted {xs : List Id} {k : Nat} {c d : Id} (h : d ∈ xs.take k ++ c :: xs.drop k) : d = c ∨ d ∈ xs := by
  have := (perm_insert xs k c).mem_iff.1 h
  simpa using this

theorem live_inserted {h h' : Heap} {e c : Id} {child : Child} {k : Nat} (hl : ListedLive h)
    (hi : Inserted h h' e c child k) : ListedLive h' := by
  intro f d hd
  have hc : (h'.obj c).isSome := by
    obtain ⟨o, ho, _⟩ := xmlParent_eq_some.1 hi.parent
    rw [ho]; rfl
  by_cases hf : f = e
  · rw [hf, hi.list] at hd
    rcases mem_inserted hd with h1 | h1
    · rw [h1]; exact hc
    · exact hi.alive d (hl e d h1)
  · rw [hi.others f hf] at hd
    exact hi.alive d (hl f d hd)

theorem live_setChildren {h : Heap} (hl : ListedLive h) {e : Id} {cs : List Id} (hs : ∀ c ∈ cs, c ∈ h.children e) :
    ListedLive (h.setChildren e cs) := by
  by_cases he : h.isElem e
  · obtain ⟨h1, h2, _, h4, _⟩ := setChildren_links he cs
    intro f d hd
    rw [h4]
    by_cases hf : f = e
    · rw [hf, h1] at hd; exact hl e d (hs d hd)
    · refine hl f d ?_
      simp only [Heap.children, h2 f hf] at hd
      exact hd
  · have : h.setChildren e cs = h := by
      unfold Heap.setChildren
      split
      · rename_i ho; exact absurd ⟨_, _, _, _, ho⟩ he
      · rfl
    rw [this]; exact hl

theorem live_appendAll {h' : Heap} {e : Id} {cs : List HChild} : ∀ {h : Heap}, Bounded h → ListedLive h →
    h.appendAll e cs = .ok h' → ListedLive h' := by
  induction cs with
  | nil => intro h _ hl hok; cases hok; exact hl
  | cons c cs ih =>
    intro h hb hl hok
    simp only [Heap.appendAll] at hok
    cases hc : h.xmlAppend e c.child with
    | error x => rw [hc] at hok; cases hok
    | ok h1 =>
      rw [hc] at hok
      obtain ⟨x, hx⟩ := appended hb hc
      exact ih (bounded_insert hb hc) (live_inserted hl hx) hok

theorem live_before {h h' : Heap} (hb : Bounded h) (hl : ListedLive h) {e c r}
    (hok : h.insertBefore e c r = .ok h') : ListedLive h' := by
  unfold Heap.insertBefore at hok
  split at hok
  · obtain ⟨c, k, hk⟩ := inserted hb hok; exact live_inserted hl hk
  · cases hok

theorem live_html {h : Heap} (hs : HSteps Heap.empty h) : ListedLive h := by
  induction hs with
  | refl => intro e c hc; simp [Heap.children, Heap.empty] at hc
  | newElement hs ih => exact live_alloc (bounded_html hs) ih _ rfl
  | newText hs ih => exact live_alloc (bounded_html hs) ih _ rfl
  | append hs hok ih =>
    obtain ⟨c, k, hk⟩ := inserted (bounded_html hs) hok; exact live_inserted ih hk
  | before hs hok ih => exact live_before (bounded_html hs) ih hok
  | @text h' h'' e s r hs hok ih =>
    have app : h'.xmlInsert e (.str s) (-1) = .ok h'' → ListedLive h'' := fun hok => by
      obtain ⟨c, k, hk⟩ := inserted (bounded_html hs) hok; exact live_inserted ih hk
    cases r with
    | none => exact app hok
    | some r =>
      simp only [Heap.insertText] at hok
      split at hok
      · exact live_before (bounded_html hs) ih hok
      · exact app hok
  | remove _ hok ih =>
    unfold Heap.removeChild at hok
    split at hok
    · cases hok; exact live_setChildren ih (fun c hc => (List.eraseP_sublist).subset hc)
    · cases hok
  | clone hs hok ih =>
    unfold Heap.cloneNode at hok
    split at hok
    · cases hok; exact live_alloc (bounded_html hs) ih _ rfl
    · cases hok
  | children hs hok ih =>
    unfold Heap.setChildNodes at hok
    split at hok
    · exact live_appendAll (bounded_setChildren (bounded_html hs) _ _)
        (live_setChildren ih (fun c hc => by cases hc)) hok
    · cases hok
  | release _ hr ih => exact hr.2.2

/-! ### tidy histories -/

/-- Everything listed by an element other than `e` has that element as parent, and is listed once. -/
def ListedOnceBut (e : Option Id) (h : Heap) : Prop :=
  ∀ f c, some f ≠ e → c ∈ h.children f → h.xmlParent c = some f ∧ (h.children f).Nodup

theorem once_inserted {x : Option Id} {h h' : Heap} {e c : Id} {child : Child} {k : Nat}
    (hl : ListedOnceBut x h) (hi : Inserted h h' e c child k)
    (hf : ∀ d, child = .node d → h.isElem d → ∀ f, some f ≠ x → d ∉ h.children f) : ListedOnceBut x h' := by
  have hun : ∀ f, some f ≠ x → c ∉ h.children f := by
    intro f hfx hc
    rcases hi.what with ⟨h1, _⟩ | ⟨h1, h2⟩
    · obtain ⟨o, ho, _⟩ := xmlParent_eq_some.1 (hl f c hfx hc).1
      rw [h1] at ho; cases ho
    · exact hf c h1 h2 f hfx hc
  intro f d hfx hd
  by_cases hfe : f = e
  · subst hfe
    have hnd : (h'.children f).Nodup := by
      rw [hi.list]
      refine (perm_insert _ k c).nodup_iff.2 (List.nodup_cons.2 ⟨hun f hfx, ?_⟩)
      cases hcs : h.children f with
      | nil => exact List.nodup_nil
      | cons a r => rw [← hcs]; exact (hl f a hfx (by rw [hcs]; simp)).2
    refine ⟨?_, hnd⟩
    rw [hi.list] at hd
    rcases mem_inserted hd with h1 | h1
    · rw [h1]; exact hi.parent
    · have hdc : d ≠ c := by rintro rfl; exact hun f hfx h1
      rw [hi.parents d hdc]; exact (hl f d hfx h1).1
  · rw [hi.others f hfe] at hd ⊢
    have hdc : d ≠ c := by rintro rfl; exact hun f hfx hd
    rw [hi.parents d hdc]; exact hl f d hfx hd

theorem once_alloc {h : Heap} (hb : Bounded h) (hl : ListedOnceBut none h) (o : Obj) (ho : o.kids = []) :
    ListedOnceBut none (h.alloc o) := by
  intro f c _ hc
  have hch : ∀ f, (h.alloc o).children f = h.children f := by
    intro f
    simp only [Heap.children, Heap.alloc_obj']
    split
    · rename_i hf; rw [hf, next_free hb]; simp [ho]
    · rfl
  rw [hch] at hc ⊢
  obtain ⟨h1, h2⟩ := hl f c (by simp) hc
  refine ⟨?_, h2⟩
  obtain ⟨oc, h3, h4, h5⟩ := xmlParent_eq_some.1 h1
  have hcn : c ≠ h.next := Nat.ne_of_lt (hb _ _ h3).1
  refine xmlParent_eq_some.2 ⟨oc, by rw [Heap.alloc_obj', if_neg hcn, h3], h4, ?_⟩
  rw [Heap.alloc_obj']
  split
  · rfl
  · exact h5

theorem once_setChildren {x : Option Id} {h : Heap} (hl : ListedOnceBut x h) {e : Id} {cs : List Id}
    (hs : some e ≠ x → cs.Sublist (h.children e)) : ListedOnceBut x (h.setChildren e cs) := by
  by_cases he : h.isElem e
  · obtain ⟨h1, h2, h3, _⟩ := setChildren_links he cs
    intro f d hfx hd
    rw [h3]
    by_cases hf : f = e
    · subst hf
      rw [h1] at hd ⊢
      have := hl f d hfx ((hs hfx).subset hd)
      exact ⟨this.1, this.2.sublist (hs hfx)⟩
    · have : (h.setChildren e cs).children f = h.children f := by simp only [Heap.children, h2 f hf]
      rw [this] at hd ⊢
      exact hl f d hfx hd
  · have : h.setChildren e cs = h := by
      unfold Heap.setChildren
      split
      · rename_i ho; exact absurd ⟨_, _, _, _, ho⟩ he
      · rfl
    rw [this]; exact hl

theorem once_appendAll {e f : Id} {cs : List Id} : ∀ {h h' : Heap}, Bounded h → ListedOnceBut (some e) h →
    cs.Nodup → (∀ d ∈ cs, (h.obj d).isSome ∧ (h.isElem d → ∀ g, g ≠ e → d ∉ h.children g)) → e ≠ f →
    h.appendAll f (cs.map .node) = .ok h' → ListedOnceBut (some e) h' := by
  induction cs with
  | nil => intro h h' _ hl _ _ _ hok; cases hok; exact hl
  | cons c cs ih =>
    intro h h' hb hl hnd hfree hef hok
    simp only [List.map_cons, Heap.appendAll] at hok
    rw [List.nodup_cons] at hnd
    cases hc : h.xmlAppend f (.node c) with
    | error x => simp only [HChild.child, hc] at hok; cases hok
    | ok h1 =>
      simp only [HChild.child, hc] at hok
      obtain ⟨x, hx⟩ := appended hb hc
      refine ih (bounded_insert hb hc) (once_inserted hl hx ?_) hnd.2 ?_ hef hok
      · intro d hd hel g hg
        cases hd
        exact (hfree c (by simp)).2 hel g (fun h => hg (by rw [h]))
      · intro d hd
        obtain ⟨h2, h3⟩ := hfree d (List.mem_cons_of_mem _ hd)
        refine ⟨hx.alive d h2, fun hel g hg hm => ?_⟩
        have hel := (hx.elems d).1 hel
        by_cases hgf : g = f
        · subst hgf
          rw [hx.list] at hm
          rcases mem_inserted hm with h4 | h4
          · rcases hx.what with ⟨h5, _⟩ | ⟨h5, h6⟩
            · rw [h4, h5] at h2; cases h2
            · cases h5; exact hnd.1 (by rw [← h4]; exact hd)
          · exact h3 hel g hg h4
        · rw [hx.others g hgf] at hm
          exact h3 hel g hg hm

/-! ### trees -/

theorem rep_alloc {h : Heap} (hb : Bounded h) (o : Obj) :
    (∀ t p i, Rep h p i t → Rep (h.alloc o) p i t) ∧
    (∀ ts par cs, RepList h par cs ts → RepList (h.alloc o) par cs ts) := by
  have hn := next_free hb
  have hobj : ∀ {i x}, h.obj i = some x → (h.alloc o).obj i = some x := by
    intro i x hi
    rw [Heap.alloc_obj', if_neg, hi]
    rintro rfl; rw [hn] at hi; cases hi
  have hpar : ∀ {i x}, h.obj i = some x → (h.alloc o).xmlParent i = h.xmlParent i := by
    intro i x hi
    unfold Heap.xmlParent
    rw [hobj hi, hi]
    cases hl : (some x).bind Obj.link with
    | none => rfl
    | some q =>
      have hq : q ≠ h.next := Nat.ne_of_lt ((hb _ _ hi).2 q hl)
      simp only [Heap.deref, Heap.alloc_obj', if_neg hq]
  apply Node.induct
  case text =>
    rintro s p j ⟨q, h1, h2⟩
    exact ⟨q, hobj h1, by rw [hpar h1, h2]⟩
  case elem =>
    rintro n as ts ih p j ⟨cs, q, h1, h2, h3, h4⟩
    exact ⟨cs, q, hobj h1, by rw [hpar h1, h2], h3, ih _ _ h4⟩
  case nil => intro par cs h; exact h
  case cons =>
    rintro x xs h1 h2 par cs ⟨c, r, rfl, h3, h4⟩
    exact ⟨c, r, rfl, h1 _ _ h3, h2 _ _ h4⟩

theorem standAs_back {h0 h h' : Heap} {e : Id} (h4 : ∀ j, (h.obj j).isSome = (h0.obj j).isSome)
    (h5 : ∀ j, h.isElem j ↔ h0.isElem j) (h6 : ∀ j s p, h0.obj j = some (.text s p) → h.obj j = some (.text s p))
    {cs : List HChild} {xs : List Id} (hs : StandAs h h' e cs xs) : StandAs h0 h' e cs xs := by
  have hn : ∀ j, h.obj j = none → h0.obj j = none := fun j hj =>
    none_back (fun j hj => by rw [h4]; exact hj) hj
  induction hs with
  | nil => exact .nil
  | @cons c' cs' y ys hy _ ih =>
    refine .cons ⟨hy.1, ?_⟩ ih
    have hy2 := hy.2
    cases c' with
    | node d => exact ⟨fun hd => hy2.1 ((h5 d).2 hd), fun s p ho =>
        ⟨hn _ (hy2.2 s p (h6 _ _ _ ho)).1, (hy2.2 s p (h6 _ _ _ ho)).2⟩⟩
    | str s => exact ⟨hn _ hy2.1, hy2.2⟩
    | comment s => exact ⟨hn _ hy2.1, hy2.2⟩

theorem standAs_forth {h h1 h' : Heap} {e : Id} (h3 : ∀ j, h'.xmlParent j = h1.xmlParent j)
    (h6 : ∀ j s p, h1.obj j = some (.text s p) → h'.obj j = some (.text s p))
    {cs : List HChild} {xs : List Id} (hs : StandAs h h1 e cs xs) : StandAs h h' e cs xs := by
  induction hs with
  | nil => exact .nil
  | @cons c' cs' y ys hy _ ih =>
    refine .cons ⟨by rw [h3]; exact hy.1, ?_⟩ ih
    have hy2 := hy.2
    cases c' with
    | node d => exact ⟨hy2.1, fun s p ho => ⟨(hy2.2 s p ho).1, h6 _ _ _ (hy2.2 s p ho).2⟩⟩
    | str s => exact ⟨hy2.1, h6 _ _ _ hy2.2⟩
    | comment s => exact ⟨hy2.1, h6 _ _ _ hy2.2⟩

theorem free_child {h : Heap} {c : HChild} (hf : Free h c) :
    ∀ d, c.child = .node d → h.isElem d → ∀ f, some f ≠ (none : Option Id) → d ∉ h.children f := by
  intro d hd hel f _
  cases c with
  | node k => cases hd; exact hf d rfl hel f
  | str s => cases hd
  | comment s => cases hd

theorem once_before {h h' : Heap} (hb : Bounded h) (hl : ListedOnceBut none h) {e c r} (hf : Free h c)
    (hok : h.insertBefore e c r = .ok h') : ListedOnceBut none h' := by
  unfold Heap.insertBefore at hok
  split at hok
  · obtain ⟨c, k, hk⟩ := inserted hb hok; exact once_inserted hl hk (free_child hf)
  · cases hok

theorem once_release {h h' : Heap} (hl : ListedOnceBut none h) (hr : Released h h') : ListedOnceBut none h' := by
  obtain ⟨_, h2, h3⟩ := hr
  have keep : ∀ {j o}, h'.obj j = some o → h.obj j = some o := by
    intro j o hj
    rcases h2 j with h | h
    · rw [← h, hj]
    · rw [h] at hj; cases hj
  intro f c hfx hc
  obtain ⟨o, ho, _⟩ := obj_some_of_children hc
  have hch : h'.children f = h.children f := by simp only [Heap.children, ho, keep ho]
  rw [hch] at hc ⊢
  obtain ⟨h4, h5⟩ := hl f c hfx hc
  refine ⟨?_, h5⟩
  have hcl := h3 f c (by rw [hch]; exact hc)
  obtain ⟨oc, hoc⟩ := Option.isSome_iff_exists.1 hcl
  obtain ⟨oc', h6, h7, _⟩ := xmlParent_eq_some.1 h4
  rw [keep hoc] at h6
  cases h6
  exact xmlParent_eq_some.2 ⟨oc, hoc, h7, by rw [ho]; rfl⟩

theorem steps_appendAll {h0 : Heap} {e : Id} {cs : List HChild} : ∀ {h h' : Heap}, HSteps h0 h →
    h.appendAll e cs = .ok h' → HSteps h0 h' := by
  induction cs with
  | nil => intro h h' hs hok; cases hok; exact hs
  | cons c cs ih =>
    intro h h' hs hok
    simp only [Heap.appendAll] at hok
    cases hc : h.xmlAppend e c.child with
    | error x => rw [hc] at hok; cases hok
    | ok h1 => rw [hc] at hok; exact ih (.append hs hc) hok

end Amara
