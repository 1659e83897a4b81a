import Verif.Spec.Mutate
import Verif.Spec.Heap
/-
Properties C24 to C27: creating, inserting and removing nodes.
-/
namespace Amara

/-! ### helper lemmas -/

theorem Heap.set_obj' (h : Heap) (i : Id) (o : Obj) (k : Id) :
    (h.set i o).obj k = if k = i then some o else h.obj k := rfl
theorem Heap.alloc_obj' (h : Heap) (o : Obj) (k : Id) :
    (h.alloc o).obj k = if k = h.next then some o else h.obj k := rfl

theorem pyInsert_eq {α} (xs : List α) (i : Int) (x : α) (hi : i ≠ -1) :
    pyInsert xs i x = xs.take (insertPos xs.length i) ++ x :: xs.drop (insertPos xs.length i) := by
  have key : ∀ k, xs.take (min k xs.length) = xs.take k ∧ xs.drop (min k xs.length) = xs.drop k := by
    intro k
    by_cases h : k ≤ xs.length
    · rw [Nat.min_eq_left h]; exact ⟨rfl, rfl⟩
    · rw [Nat.min_eq_right (by omega)]
      simp [List.take_of_length_le (Nat.le_of_lt (Nat.lt_of_not_le h)),
        List.drop_eq_nil_of_le (Nat.le_of_lt (Nat.lt_of_not_le h))]
  simp only [pyInsert, insertPos, hi, if_false]
  by_cases h : 0 ≤ i
  · rw [if_pos h, if_neg (by omega), (key _).1, (key _).2]
  · rw [if_neg h, if_pos (by omega)]
    have : i + (xs.length : Int) = xs.length + i := by omega
    rw [this]

/-- What `xml_insert` does to the child list. -/
theorem insert_list (xs : List Id) (i : Int) (c : Id) :
    (if i = -1 then xs ++ [c] else pyInsert xs i c) =
      xs.take (insertPos xs.length i) ++ c :: xs.drop (insertPos xs.length i) := by
  by_cases h : i = -1
  · simp [h, insertPos]
  · rw [if_neg h, pyInsert_eq _ _ _ h]

/-- Everything about one insertion. -/
theorem insert_spec {h h' : Heap} {e : Id} {child : Child} {i : Int} (hok : h.xmlInsert e child i = .ok h') :
    ∃ n as cs p c h1, h.obj e = some (.elem n as cs p) ∧ h.attach e child = some (c, h1) ∧
      h' = h1.setChildren e ((h1.children e).take (insertPos (h1.children e).length i) ++
        c :: (h1.children e).drop (insertPos (h1.children e).length i)) := by
  simp only [Heap.xmlInsert] at hok
  cases ho : h.obj e with
  | none => rw [ho] at hok; cases hok
  | some o =>
    cases o with
    | text s p => rw [ho] at hok; cases hok
    | elem n as cs p =>
      rw [ho] at hok
      simp only at hok
      cases ha : h.attach e child with
      | none => rw [ha] at hok; cases hok
      | some x =>
        obtain ⟨c, h1⟩ := x
        rw [ha] at hok
        simp only [insert_list, Except.ok.injEq] at hok
        exact ⟨n, as, cs, p, c, h1, rfl, rfl, hok.symm⟩

/-- Identities in use are below the counter, and so are stored links. -/
def Bounded (h : Heap) : Prop := ∀ i o, h.obj i = some o → i < h.next ∧ ∀ p, o.link = some p → p < h.next

theorem perm_insert (xs : List Id) (k : Nat) (c : Id) :
    (xs.take k ++ c :: xs.drop k).Perm (c :: xs) := by
  have := List.perm_middle (a := c) (l₁ := xs.take k) (l₂ := xs.drop k)
  rwa [List.take_append_drop] at this

/-- The invariant of histories. -/
structure Inv (h : Heap) : Prop where
  bounded : Bounded h
  consistent : Consistent h

theorem obj_some_of_children {h : Heap} {e c : Id} (hc : c ∈ h.children e) :
    ∃ o, h.obj e = some o ∧ c ∈ o.kids := by
  simp only [Heap.children] at hc
  cases ho : h.obj e with
  | none => rw [ho] at hc; simp at hc
  | some o => rw [ho] at hc; exact ⟨o, rfl, by simpa using hc⟩

theorem Inv.child_lt {h : Heap} (hi : Inv h) {e c : Id} (hc : c ∈ h.children e) : c < h.next := by
  obtain ⟨o, ho, _⟩ := obj_some_of_children hc
  have := ((hi.consistent e (by simp [ho])).2 c).1 hc
  cases hco : h.obj c with
  | none => rw [hco] at this; simp at this
  | some oc => exact (hi.bounded c oc hco).1

theorem xmlParent_eq_some {h : Heap} {c e : Id} :
    h.xmlParent c = some e ↔ ∃ o, h.obj c = some o ∧ o.link = some e ∧ (h.obj e).isSome := by
  simp only [Heap.xmlParent]
  cases ho : h.obj c with
  | none => simp [Heap.deref]
  | some o =>
    simp only [Option.bind_some, Option.some.injEq, exists_eq_left']
    cases hl : o.link with
    | none => simp [Heap.deref]
    | some p =>
      simp only [Heap.deref]
      by_cases hp : (h.obj p).isSome
      · simp only [hp, if_true, Option.some.injEq]
        constructor
        · rintro rfl; exact ⟨rfl, hp⟩
        · rintro ⟨rfl, _⟩; rfl
      · simp only [hp]
        constructor
        · intro h; cases h
        · rintro ⟨h, h'⟩; cases h; exact absurd h' hp

/-- Making a new object that nobody lists. -/
theorem inv_alloc {h : Heap} (hi : Inv h) (o : Obj) (ho : o.kids = []) (hl : o.link = none) :
    Inv (h.alloc o) := by
  constructor
  · intro i o' hio
    rw [Heap.alloc_obj'] at hio
    by_cases hn : i = h.next
    · subst hn
      rw [if_pos rfl] at hio; cases hio
      exact ⟨Nat.lt_succ_self _, by rw [hl]; simp⟩
    · rw [if_neg hn] at hio
      have := hi.bounded i o' hio
      exact ⟨Nat.lt_succ_of_lt this.1, fun p hp => Nat.lt_succ_of_lt (this.2 p hp)⟩
  · intro e he
    have hnew : h.obj h.next = none := by
      cases hh : h.obj h.next with
      | none => rfl
      | some o' => exact absurd (hi.bounded _ _ hh).1 (Nat.lt_irrefl _)
    have hch : ∀ k, (h.alloc o).children k = if k = h.next then [] else h.children k := by
      intro k
      simp only [Heap.children, Heap.alloc_obj']
      by_cases hk : k = h.next
      · simp [hk, ho]
      · simp [hk]
    by_cases hn : e = h.next
    · subst hn
      rw [hch, if_pos rfl]
      refine ⟨List.nodup_nil, fun c => ?_⟩
      simp only [List.not_mem_nil, false_iff, not_and]
      intro _ hp
      obtain ⟨oc, h1, h2, _⟩ := xmlParent_eq_some.1 hp
      rw [Heap.alloc_obj'] at h1
      by_cases hc : c = h.next
      · rw [if_pos hc] at h1; cases h1; rw [hl] at h2; cases h2
      · rw [if_neg hc] at h1
        exact absurd ((hi.bounded c oc h1).2 _ h2) (Nat.lt_irrefl _)
    · rw [hch, if_neg hn]
      rw [Heap.alloc_obj', if_neg hn] at he
      obtain ⟨h1, h2⟩ := hi.consistent e he
      refine ⟨h1, fun c => ?_⟩
      rw [h2]
      constructor
      · rintro ⟨a, b⟩
        have hc : c ≠ h.next := by rintro rfl; rw [hnew] at a; cases a
        obtain ⟨oc, b1, b2, b3⟩ := xmlParent_eq_some.1 b
        refine ⟨by simpa [Heap.alloc_obj', hc] using a, xmlParent_eq_some.2 ⟨oc, ?_, b2, ?_⟩⟩
        · simpa [Heap.alloc_obj', hc] using b1
        · simpa [Heap.alloc_obj', hn] using b3
      · rintro ⟨a, b⟩
        obtain ⟨oc, b1, b2, b3⟩ := xmlParent_eq_some.1 b
        have hc : c ≠ h.next := by
          rintro rfl
          simp [Heap.alloc_obj'] at b1; rw [← b1, hl] at b2; cases b2
        refine ⟨by simpa [Heap.alloc_obj', hc] using a, xmlParent_eq_some.2 ⟨oc, ?_, b2, ?_⟩⟩
        · simpa [Heap.alloc_obj', hc] using b1
        · simpa [Heap.alloc_obj', hn] using b3

/-- Linking `c`, until now without parent, to `e` and listing it. -/
theorem inv_link {h h' : Heap} (hi : Inv h) {e c : Id} {oc oc' : Obj} {n as cs p}
    (he : h.obj e = some (.elem n as cs p)) (hc : h.obj c = some oc) (hdet : h.xmlParent c = none)
    (hoc : oc'.link = some e) (hkids : c ≠ e → oc'.kids = oc.kids) (cs' : List Id) (hp : cs'.Perm (c :: cs))
    (hn : h'.next = h.next)
    (hobj : ∀ k, h'.obj k = if k = e then some (.elem n as cs' (if c = e then some e else p))
      else if k = c then some oc' else h.obj k) : Inv h' := by
  have hce : h.children e = cs := by simp [Heap.children, he, Obj.kids]
  have hsome : ∀ k, (h'.obj k).isSome = (h.obj k).isSome := by
    intro k
    rw [hobj]
    by_cases h1 : k = e
    · rw [h1, he]; simp
    · by_cases h2 : k = c
      · rw [if_neg h1, h2, hc]; simp
      · rw [if_neg h1, if_neg h2]
  have elt := (hi.bounded e _ he).1
  have clt := (hi.bounded c _ hc).1
  -- links
  have hlink : ∀ k, (h'.obj k).bind Obj.link = if k = c then some e else (h.obj k).bind Obj.link := by
    intro k
    rw [hobj]
    by_cases h1 : k = e
    · subst h1
      by_cases h2 : k = c
      · subst h2; simp [Obj.link]
      · have : ¬ c = k := fun e => h2 e.symm
        simp [h2, this, Obj.link, he]
    · by_cases h2 : k = c
      · subst h2; simp [h1, hoc]
      · simp [h1, h2]
  have hpar : ∀ k, h'.xmlParent k = if k = c then some e else h.xmlParent k := by
    intro k
    simp only [Heap.xmlParent, hlink]
    have hd : ∀ q, h'.deref q = h.deref q := by
      intro q; cases q with
      | none => rfl
      | some q => simp only [Heap.deref, hsome]
    rw [hd]
    by_cases h2 : k = c
    · simp [h2, Heap.deref, he]
    · simp [h2]
  have hch : ∀ k, h'.children k = if k = e then cs' else h.children k := by
    intro k
    simp only [Heap.children, hobj]
    by_cases h1 : k = e
    · simp [h1, Obj.kids]
    · by_cases h2 : k = c
      · have hne : c ≠ e := by rintro rfl; exact h1 h2
        subst h2; simp [h1, hkids hne, hc]
      · simp [h1, h2]
  have hnotin : ∀ k, (h.obj k).isSome → c ∉ h.children k := by
    intro k hk hm
    have := ((hi.consistent k hk).2 c).1 hm
    rw [hdet] at this; cases this.2
  constructor
  · intro k o hk
    rw [hn]
    constructor
    · by_cases h1 : k = e
      · rw [h1]; exact elt
      · by_cases h2 : k = c
        · rw [h2]; exact clt
        · rw [hobj, if_neg h1, if_neg h2] at hk; exact (hi.bounded k o hk).1
    · intro q hq
      have := hlink k
      rw [hk] at this
      simp only [Option.bind_some, hq] at this
      by_cases h2 : k = c
      · rw [if_pos h2] at this; cases this; exact elt
      · rw [if_neg h2] at this
        cases hk' : h.obj k with
        | none => rw [hk'] at this; cases this
        | some o' => rw [hk'] at this; exact (hi.bounded k o' hk').2 q this.symm
  · intro k hk
    rw [hsome] at hk
    obtain ⟨c1, c2⟩ := hi.consistent k hk
    rw [hch]
    by_cases h1 : k = e
    · subst h1
      rw [if_pos rfl]
      rw [hce] at c1 c2
      have hcn := hnotin k hk
      rw [hce] at hcn
      refine ⟨hp.nodup_iff.2 (List.nodup_cons.2 ⟨hcn, c1⟩), fun d => ?_⟩
      rw [hp.mem_iff, List.mem_cons, hsome, hpar, c2]
      by_cases hd : d = c
      · subst hd; simp [hc]
      · simp [hd]
    · rw [if_neg h1]
      refine ⟨c1, fun d => ?_⟩
      rw [c2, hsome, hpar]
      by_cases hd : d = c
      · subst hd
        have := hnotin k hk
        rw [c2] at this
        simp only [if_true, hc, Option.isSome_some, true_and, Option.some.injEq]
        constructor
        · intro hh; exact absurd ⟨by simp [hc], hh⟩ this
        · rintro rfl; exact absurd rfl h1
      · simp [hd]

theorem setChildren_obj {h : Heap} {e : Id} {n as cs p} (he : h.obj e = some (.elem n as cs p)) (cs' k) :
    (h.setChildren e cs').obj k = if k = e then some (.elem n as cs' p) else h.obj k := by
  simp [Heap.setChildren, he, Heap.set_obj']

theorem setChildren_next (h : Heap) (e cs') : (h.setChildren e cs').next = h.next := by
  unfold Heap.setChildren; split <;> rfl

/-- Inserting a new text node. -/
theorem inv_insert_new {h h' : Heap} (hi : Inv h) {e : Id} {n as cs p s} {i : Int}
    (he : h.obj e = some (.elem n as cs p))
    (hh : h' = (h.alloc (.text s (some e))).setChildren e
      (((h.alloc (.text s (some e))).children e).take (insertPos ((h.alloc (.text s (some e))).children e).length i)
        ++ h.next :: ((h.alloc (.text s (some e))).children e).drop
          (insertPos ((h.alloc (.text s (some e))).children e).length i))) : Inv h' := by
  have hlt := (hi.bounded e _ he).1
  have hne : e ≠ h.next := Nat.ne_of_lt hlt
  -- first make the node without a parent, then link it
  have h0 := inv_alloc hi (.text s none) rfl rfl
  have he0 : (h.alloc (.text s none)).obj e = some (.elem n as cs p) := by
    rw [Heap.alloc_obj', if_neg hne, he]
  have he1 : (h.alloc (.text s (some e))).obj e = some (.elem n as cs p) := by
    rw [Heap.alloc_obj', if_neg hne, he]
  have hce : (h.alloc (.text s (some e))).children e = cs := by simp [Heap.children, he1, Obj.kids]
  rw [hce] at hh
  refine inv_link (c := h.next) (oc := .text s none) (oc' := .text s (some e)) h0 he0
    (by simp [Heap.alloc_obj']) ?_ rfl (fun _ => rfl) _ (perm_insert cs (insertPos cs.length i) h.next) ?_ ?_
  · simp [Heap.xmlParent, Heap.alloc_obj', Obj.link, Heap.deref]
  · rw [hh, setChildren_next]; rfl
  · intro k
    rw [hh, setChildren_obj he1]
    have hne' : ¬ h.next = e := fun x => hne x.symm
    by_cases h1 : k = e
    · simp [h1, hne']
    · by_cases h2 : k = h.next
      · simp [h2, hne', Heap.alloc_obj']
      · simp [h1, h2, Heap.alloc_obj']

theorem inv_insert {h h' : Heap} (hi : Inv h) {e : Id} {child : Child} {i : Int}
    (hok : h.xmlInsert e child i = .ok h')
    (hch : ∀ c, child = .node c → h.isElem c → h.xmlParent c = none) : Inv h' := by
  obtain ⟨n, as, cs, p, c, h1, he, ha, hh⟩ := insert_spec hok
  cases child with
  | str s =>
    simp only [Heap.attach, Option.some.injEq, Prod.mk.injEq] at ha
    obtain ⟨rfl, rfl⟩ := ha
    exact inv_insert_new hi he hh
  | node d =>
    simp only [Heap.attach] at ha
    cases hd : h.obj d with
    | none => rw [hd] at ha; cases ha
    | some od =>
      cases od with
      | text s q =>
        rw [hd] at ha
        simp only [Option.some.injEq, Prod.mk.injEq] at ha
        obtain ⟨rfl, rfl⟩ := ha
        exact inv_insert_new hi he hh
      | elem n' as' cs' q =>
        rw [hd] at ha
        simp only [Option.some.injEq, Prod.mk.injEq] at ha
        obtain ⟨rfl, rfl⟩ := ha
        have hdet := hch d rfl ⟨_, _, _, _, hd⟩
        by_cases hde : d = e
        · subst hde
          rw [he] at hd; cases hd
          have he1 : (h.set d (.elem n as cs (some d))).obj d = some (.elem n as cs (some d)) := by
            simp [Heap.set_obj']
          have hce : (h.set d (.elem n as cs (some d))).children d = cs := by
            simp [Heap.children, he1, Obj.kids]
          rw [hce] at hh
          refine inv_link (c := d) (oc := .elem n as cs p) (oc' := .elem n as cs (some d)) hi he he hdet rfl
            (fun h => absurd rfl h) _ (perm_insert cs (insertPos cs.length i) d) ?_ ?_
          · rw [hh, setChildren_next]; rfl
          · intro k
            rw [hh, setChildren_obj he1]
            by_cases h1 : k = d
            · simp [h1]
            · simp [h1, Heap.set_obj']
        · have hed : ¬ e = d := fun x => hde x.symm
          have he1 : (h.set d (.elem n' as' cs' (some e))).obj e = some (.elem n as cs p) := by
            rw [Heap.set_obj', if_neg hed, he]
          have hce : (h.set d (.elem n' as' cs' (some e))).children e = cs := by
            simp [Heap.children, he1, Obj.kids]
          rw [hce] at hh
          refine inv_link (c := d) (oc := .elem n' as' cs' q) (oc' := .elem n' as' cs' (some e)) hi he hd hdet rfl
            (fun _ => rfl) _ (perm_insert cs (insertPos cs.length i) d) ?_ ?_
          · rw [hh, setChildren_next]; rfl
          · intro k
            rw [hh, setChildren_obj he1]
            by_cases h1 : k = e
            · simp [h1, hde]
            · by_cases h2 : k = d
              · simp [h2, hde, Heap.set_obj']
              · simp [h1, h2, Heap.set_obj']


/-- The objects after an element is taken out of a list. -/
theorem remove_spec {h h' : Heap} {e c : Id} (hc : h.isElem c) (hok : h.xmlRemove e c = .ok h') :
    ∃ n as cs p n' as' cs' p', h.obj e = some (.elem n as cs p) ∧ h.obj c = some (.elem n' as' cs' p') ∧
      c ∈ cs ∧ h'.next = h.next ∧
      ∀ k, h'.obj k = if k = e then some (.elem n as (cs.erase c) (if c = e then none else p))
        else if k = c then some (.elem n' as' cs' none) else h.obj k := by
  obtain ⟨n', as', cs', p', hc⟩ := hc
  have heq : ∀ d, h.pyEq c d = (c == d) := by
    intro d; simp [Heap.pyEq, hc]
  simp only [Heap.xmlRemove] at hok
  cases ho : h.obj e with
  | none => rw [ho] at hok; cases hok
  | some o =>
    cases o with
    | text s p => rw [ho] at hok; cases hok
    | elem n as cs p =>
      rw [ho] at hok
      have hce : h.children e = cs := by simp [Heap.children, ho, Obj.kids]
      simp only [hce] at hok
      by_cases hm : cs.any (h.pyEq c) = true
      · rw [if_pos hm] at hok
        simp only [Except.ok.injEq] at hok
        have hmem : c ∈ cs := by
          rw [List.any_eq_true] at hm
          obtain ⟨x, hx, hxe⟩ := hm
          rw [heq, beq_iff_eq] at hxe; rw [hxe]; exact hx
        have her : cs.eraseP (h.pyEq c) = cs.erase c := by
          rw [List.erase_eq_eraseP c cs, show h.pyEq c = (c == ·) from funext heq]
        refine ⟨n, as, cs, p, n', as', cs', p', rfl, hc, hmem, ?_, ?_⟩
        · rw [← hok, setChildren_next]; simp [Heap.unlink, hc, Heap.set]
        · intro k
          have hu : h.unlink c = h.set c (.elem n' as' cs' none) := by simp [Heap.unlink, hc]
          rw [← hok, hu, her]
          by_cases hce' : c = e
          · subst hce'
            rw [ho] at hc; cases hc
            rw [setChildren_obj (n := n') (as := as') (cs := cs') (p := none) (by simp [Heap.set_obj'])]
            by_cases h1 : k = c
            · simp [h1]
            · simp [h1, Heap.set_obj']
          · have hec : ¬ e = c := fun x => hce' x.symm
            rw [setChildren_obj (n := n) (as := as) (cs := cs) (p := p) (by rw [Heap.set_obj', if_neg hec, ho])]
            by_cases h1 : k = e
            · simp [h1, hce']
            · simp [h1, Heap.set_obj']
      · rw [if_neg hm] at hok; cases hok

theorem inv_remove {h h' : Heap} (hi : Inv h) {e c : Id} (hc : h.isElem c) (hok : h.xmlRemove e c = .ok h') :
    Inv h' := by
  obtain ⟨n, as, cs, p, n', as', cs', p', he, hc, hmem, hn, hobj⟩ := remove_spec hc hok
  have hce : h.children e = cs := by simp [Heap.children, he, Obj.kids]
  have hsome : ∀ k, (h'.obj k).isSome = (h.obj k).isSome := by
    intro k
    rw [hobj]
    by_cases h1 : k = e
    · rw [h1, he]; simp
    · by_cases h2 : k = c
      · rw [if_neg h1, h2, hc]; simp
      · rw [if_neg h1, if_neg h2]
  have hlink : ∀ k, (h'.obj k).bind Obj.link = if k = c then none else (h.obj k).bind Obj.link := by
    intro k
    rw [hobj]
    by_cases h1 : k = e
    · subst h1
      by_cases h2 : k = c
      · subst h2; simp [Obj.link]
      · have : ¬ c = k := fun e => h2 e.symm
        simp [h2, this, Obj.link, he]
    · by_cases h2 : k = c
      · subst h2; simp [h1, Obj.link]
      · simp [h1, h2]
  have hpar : ∀ k, h'.xmlParent k = if k = c then none else h.xmlParent k := by
    intro k
    simp only [Heap.xmlParent, hlink]
    have hd : ∀ q, h'.deref q = h.deref q := by
      intro q; cases q with
      | none => rfl
      | some q => simp only [Heap.deref, hsome]
    rw [hd]
    by_cases h2 : k = c
    · simp [h2, Heap.deref]
    · simp [h2]
  have hch : ∀ k, h'.children k = if k = e then cs.erase c else h.children k := by
    intro k
    simp only [Heap.children, hobj]
    by_cases h1 : k = e
    · simp [h1, Obj.kids]
    · by_cases h2 : k = c
      · subst h2; simp [h1, hc, Obj.kids]
      · simp [h1, h2]
  constructor
  · intro k o hk
    rw [hn]
    have hks : (h.obj k).isSome := by rw [← hsome, hk]; rfl
    cases hk' : h.obj k with
    | none => rw [hk'] at hks; cases hks
    | some o' =>
      have hb := hi.bounded k o' hk'
      refine ⟨hb.1, fun q hq => ?_⟩
      have := hlink k
      rw [hk, hk'] at this
      simp only [Option.bind_some, hq] at this
      by_cases h2 : k = c
      · rw [if_pos h2] at this; cases this
      · rw [if_neg h2] at this; exact hb.2 q this.symm
  · intro k hk
    rw [hsome] at hk
    obtain ⟨c1, c2⟩ := hi.consistent k hk
    rw [hch]
    by_cases h1 : k = e
    · subst h1
      rw [if_pos rfl]
      rw [hce] at c1 c2
      refine ⟨c1.erase c, fun d => ?_⟩
      rw [c1.mem_erase_iff, hsome, hpar, c2]
      by_cases hd : d = c
      · simp [hd]
      · simp [hd]
    · rw [if_neg h1]
      refine ⟨c1, fun d => ?_⟩
      rw [c2, hsome, hpar]
      by_cases hd : d = c
      · subst hd
        have := ((hi.consistent e (by simp [he])).2 d).1 (hce ▸ hmem)
        rw [this.2]
        simp only [if_true, Option.some.injEq, reduceCtorEq, and_false, iff_false, not_and]
        intro _ hh; exact h1 hh.symm
      · simp [hd]

theorem inv_release {h h' : Heap} (hi : Inv h) (hr : Released h h') : Inv h' := by
  obtain ⟨hn, hsub, hcl⟩ := hr
  have hof : ∀ {k o}, h'.obj k = some o → h.obj k = some o := by
    intro k o hk
    rcases hsub k with h1 | h1
    · rw [← h1, hk]
    · rw [h1] at hk; cases hk
  constructor
  · intro k o hk
    rw [hn]; exact hi.bounded k o (hof hk)
  · intro e he
    cases heo : h'.obj e with
    | none => rw [heo] at he; cases he
    | some o =>
      have heo' := hof heo
      have hch : h'.children e = h.children e := by simp [Heap.children, heo, heo']
      obtain ⟨c1, c2⟩ := hi.consistent e (by rw [heo']; rfl)
      rw [hch]
      refine ⟨c1, fun c => ?_⟩
      constructor
      · intro hc
        have hs := hcl e c (hch ▸ hc)
        refine ⟨hs, ?_⟩
        obtain ⟨oc, o1, o2, o3⟩ := xmlParent_eq_some.1 ((c2 c).1 hc).2
        cases hco : h'.obj c with
        | none => rw [hco] at hs; cases hs
        | some oc' =>
          have := hof hco
          rw [o1] at this; cases this
          exact xmlParent_eq_some.2 ⟨oc, hco, o2, by rw [heo]; rfl⟩
      · rintro ⟨hs, hp⟩
        obtain ⟨oc, o1, o2, o3⟩ := xmlParent_eq_some.1 hp
        exact (c2 c).2 ⟨by rw [hof o1]; rfl, xmlParent_eq_some.2 ⟨oc, hof o1, o2, by rw [heo']; rfl⟩⟩

theorem inv_empty : Inv Heap.empty := by
  constructor
  · intro i o h; cases h
  · intro e h; cases h

theorem inv_step {h h' : Heap} (hi : Inv h) (hs : MStep h h') : Inv h' := by
  cases hs with
  | newElement n as => exact inv_alloc hi _ rfl rfl
  | newText s => exact inv_alloc hi _ rfl rfl
  | insertStr hok => exact inv_insert hi hok (by intro c hc; cases hc)
  | insertText ho hok =>
    refine inv_insert hi hok ?_
    intro c hc ⟨_, _, _, _, he⟩
    cases hc; rw [ho] at he; cases he
  | insertElement he hp hok => exact inv_insert hi hok (by intro c hc _; cases hc; exact hp)
  | remove he hok => exact inv_remove hi he hok
  | release hr => exact inv_release hi hr

theorem inv_steps {h : Heap} (hs : MSteps Heap.empty h) : Inv h := by
  have key : ∀ {a b}, MSteps a b → Inv a → Inv b := by
    intro a b hab
    induction hab with
    | refl => exact id
    | tail _ h2 ih => exact fun hi => inv_step (ih hi) h2
  exact key hs inv_empty

/-- The hypothesis `Bounded` of the theorems below holds in every history. -/
theorem bounded_of_history {h : Heap} (hs : MSteps Heap.empty h) : Bounded h := (inv_steps hs).bounded

/-! ### C24 -/

/-- C24: after any history of creating nodes, inserting strings, text nodes and detached elements at any
positions, removing elements and letting go of nodes, a node is listed among an element's children exactly
when its `xml_parent` is that element, and no child list has a node twice. -/
theorem C24_parent_and_child_agree {h : Heap} (hs : MSteps Heap.empty h) : Consistent h :=
  (inv_steps hs).consistent

/-! ### C25 -/

/-- C25: `e.xml_insert(child, i)` puts exactly one node into the list, before the old item number `i`
(-1: at the end; other negative numbers from the end; clamped), keeping the others in order. The node is the
element itself, or a new text node; its `xml_parent` is `e`. No other object changes. -/
theorem C25_insert_position {h h' : Heap} {e : Id} {child : Child} {i : Int}
    (hok : h.xmlInsert e child i = .ok h') (hb : Bounded h) :
    ∃ c, h'.children e = (h.children e).take (insertPos (h.children e).length i)
        ++ c :: (h.children e).drop (insertPos (h.children e).length i) ∧
      h'.xmlParent c = some e ∧
      (∀ d, child = .node d → h.isElem d → c = d) ∧
      (∀ s, IsString h child s → h.obj c = none ∧ h'.obj c = some (.text s (some e))) ∧
      (∀ k, k ≠ e → k ≠ c → h'.obj k = h.obj k) ∧
      (∀ k, k ≠ e → (h.obj k).isSome → h'.children k = h.children k) := by
  obtain ⟨n, as, cs, p, c, h1, he, ha, hh⟩ := insert_spec hok
  have hlt := (hb e _ he).1
  have hne : e ≠ h.next := Nat.ne_of_lt hlt
  have hnew : h.obj h.next = none := by
    cases hx : h.obj h.next with
    | none => rfl
    | some o' => exact absurd (hb _ _ hx).1 (Nat.lt_irrefl _)
  have hce : h.children e = cs := by simp [Heap.children, he, Obj.kids]
  have txt : ∀ s, c = h.next → h1 = h.alloc (.text s (some e)) →
      h'.children e = (h.children e).take (insertPos (h.children e).length i)
        ++ c :: (h.children e).drop (insertPos (h.children e).length i) ∧
      h'.xmlParent c = some e ∧ (h.obj c = none ∧ h'.obj c = some (.text s (some e))) ∧
      (∀ k, k ≠ e → k ≠ c → h'.obj k = h.obj k) ∧
      (∀ k, k ≠ e → (h.obj k).isSome → h'.children k = h.children k) := by
    rintro s rfl rfl
    have he1 : (h.alloc (.text s (some e))).obj e = some (.elem n as cs p) := by
      rw [Heap.alloc_obj', if_neg hne, he]
    have hce1 : (h.alloc (.text s (some e))).children e = cs := by simp [Heap.children, he1, Obj.kids]
    rw [hce1] at hh
    have hobj := fun k => setChildren_obj he1 (cs.take (insertPos cs.length i)
        ++ h.next :: cs.drop (insertPos cs.length i)) k
    subst hh
    have hne' : ¬ h.next = e := fun x => hne x.symm
    refine ⟨?_, ?_, ⟨hnew, by simp [hobj, hne', Heap.alloc_obj']⟩, ?_, ?_⟩
    · rw [hce]; simp only [Heap.children]; simp [hobj, Obj.kids]
    · refine xmlParent_eq_some.2 ⟨.text s (some e), ?_, rfl, ?_⟩
      · simp [hobj, hne', Heap.alloc_obj']
      · simp [hobj]
    · intro k h1 h2; simp [hobj, h1, h2, Heap.alloc_obj']
    · intro k h1 hk
      have h2 : k ≠ h.next := by rintro rfl; rw [hnew] at hk; cases hk
      simp only [Heap.children]; simp [hobj, h1, h2, Heap.alloc_obj']
  cases child with
  | str s =>
    simp only [Heap.attach, Option.some.injEq, Prod.mk.injEq] at ha
    obtain ⟨a, b, t, r⟩ := txt s ha.1.symm ha.2.symm
    refine ⟨c, a, b, (by intro d hd; cases hd), ?_, r⟩
    intro s' hs'
    rcases hs' with hs' | ⟨_, _, hs', _⟩
    · cases hs'; exact t
    · cases hs'
  | node d =>
    simp only [Heap.attach] at ha
    cases hd : h.obj d with
    | none => rw [hd] at ha; cases ha
    | some od =>
      cases od with
      | text s q =>
        rw [hd] at ha
        simp only [Option.some.injEq, Prod.mk.injEq] at ha
        obtain ⟨a, b, t, r⟩ := txt s ha.1.symm ha.2.symm
        refine ⟨c, a, b, ?_, ?_, r⟩
        · rintro d' hd' ⟨_, _, _, _, hx⟩; cases hd'; rw [hd] at hx; cases hx
        · intro s' hs'
          rcases hs' with hs' | ⟨_, _, hs', hs''⟩
          · cases hs'
          · cases hs'; rw [hd] at hs''; cases hs''; exact t
      | elem n' as' cs' q =>
        rw [hd] at ha
        simp only [Option.some.injEq, Prod.mk.injEq] at ha
        obtain ⟨rfl, rfl⟩ := ha
        have he1 : ∃ p', (h.set d (.elem n' as' cs' (some e))).obj e = some (.elem n as cs p') ∧
            (d = e → p' = some e) := by
          by_cases hde : d = e
          · subst hde
            rw [he] at hd; cases hd
            exact ⟨some d, by simp [Heap.set_obj'], fun _ => rfl⟩
          · exact ⟨p, by rw [Heap.set_obj', if_neg (fun x => hde x.symm), he], fun h => absurd h hde⟩
        obtain ⟨p', he1, hp'⟩ := he1
        have hce1 : (h.set d (.elem n' as' cs' (some e))).children e = cs := by
          simp [Heap.children, he1, Obj.kids]
        rw [hce1] at hh
        have hobj := fun k => setChildren_obj he1 (cs.take (insertPos cs.length i)
            ++ d :: cs.drop (insertPos cs.length i)) k
        subst hh
        refine ⟨d, ?_, ?_, (by intro d' hd' _; cases hd'; rfl), ?_, ?_, ?_⟩
        · rw [hce]; simp only [Heap.children]; simp [hobj, Obj.kids]
        · by_cases hde : d = e
          · exact xmlParent_eq_some.2 ⟨_, by rw [hobj, if_pos hde], by simp [Obj.link, hp' hde], by simp [hobj]⟩
          · exact xmlParent_eq_some.2 ⟨.elem n' as' cs' (some e),
              by rw [hobj, if_neg hde, Heap.set_obj', if_pos rfl], rfl, by simp [hobj]⟩
        · intro s' hs'
          rcases hs' with hs' | ⟨_, _, hs', hs''⟩
          · cases hs'
          · cases hs'; rw [hd] at hs''; cases hs''
        · intro k h1 h2; simp [hobj, h1, h2, Heap.set_obj']
        · intro k h1 _
          simp only [Heap.children]; simp only [hobj, h1, if_false, Heap.set_obj']
          by_cases h2 : k = d
          · simp [h2, hd, Obj.kids]
          · simp [h2]


/-- `xml_append` adds the child last. -/
theorem C25_append_is_last {h h' : Heap} {e : Id} {child : Child}
    (hok : h.xmlAppend e child = .ok h') (hb : Bounded h) :
    ∃ c, h'.children e = h.children e ++ [c] ∧ h'.xmlParent c = some e ∧
      (∀ d, child = .node d → h.isElem d → c = d) ∧
      (∀ s, IsString h child s → h.obj c = none ∧ h'.obj c = some (.text s (some e))) := by
  obtain ⟨c, h1, h2, h3, h4, _, _⟩ := C25_insert_position hok hb
  refine ⟨c, ?_, h2, h3, h4⟩
  rw [h1]; simp [insertPos]

/-! ### C26 -/

/-- C26 for elements: `e.xml_remove(c)` takes exactly `c` out of the children and leaves the rest in order,
makes its `xml_parent` None, and changes no other child list, name or attribute. -/
theorem C26_remove_element_partial {h h' : Heap} {e c : Id} (hc : h.isElem c) (hok : h.xmlRemove e c = .ok h') :
    c ∈ h.children e ∧ h'.children e = (h.children e).erase c ∧ h'.xmlParent c = none ∧
    (∀ k, k ≠ e → h'.children k = h.children k) ∧ (∀ k, k ≠ e → k ≠ c → h'.obj k = h.obj k) ∧
    (∀ k, k ≠ c → h'.xmlParent k = h.xmlParent k) := by
  obtain ⟨n, as, cs, p, n', as', cs', p', he, hc, hmem, hn, hobj⟩ := remove_spec hc hok
  have hce : h.children e = cs := by simp [Heap.children, he, Obj.kids]
  have hsome : ∀ k, (h'.obj k).isSome = (h.obj k).isSome := by
    intro k
    rw [hobj]
    by_cases h1 : k = e
    · rw [h1, he]; simp
    · by_cases h2 : k = c
      · rw [if_neg h1, h2, hc]; simp
      · rw [if_neg h1, if_neg h2]
  refine ⟨hce ▸ hmem, ?_, ?_, ?_, ?_, ?_⟩
  · rw [hce]; simp only [Heap.children]; simp [hobj, Obj.kids]
  · simp only [Heap.xmlParent, hobj]
    by_cases h1 : c = e
    · simp [h1, Obj.link, Heap.deref]
    · simp [h1, Obj.link, Heap.deref]
  · intro k h1
    simp only [Heap.children, hobj, h1, if_false]
    by_cases h2 : k = c
    · simp [h2, hc, Obj.kids]
    · simp [h2]
  · intro k h1 h2
    simp [hobj, h1, h2]
  · intro k h2
    have hd : ∀ q, h'.deref q = h.deref q := by
      intro q; cases q with
      | none => rfl
      | some q => simp only [Heap.deref, hsome]
    simp only [Heap.xmlParent, hd, hobj]
    by_cases h1 : k = e
    · have : ¬ c = e := fun x => h2 (h1.trans x.symm)
      simp [h1, this, he, Obj.link]
    · simp [h1, h2]

/-- C26, the error: on an element, `xml_remove` of an element that is not a child raises ValueError, and
of one that is succeeds. (An error carries no new state: nothing was changed.) -/
theorem C26_remove_succeeds_iff {h : Heap} {e c : Id} (he : h.isElem e) (hc : h.isElem c) :
    (c ∈ h.children e → ∃ h', h.xmlRemove e c = .ok h') ∧
    (c ∉ h.children e → h.xmlRemove e c = .error .valueError) := by
  obtain ⟨n, as, cs, p, he⟩ := he
  obtain ⟨n', as', cs', p', hc⟩ := hc
  have heq : h.pyEq c = (c == ·) := by
    funext d; simp [Heap.pyEq, hc]
  constructor
  · intro hm
    have : (h.children e).any (h.pyEq c) = true := by
      rw [heq, List.any_eq_true]; exact ⟨c, hm, by simp⟩
    simp [Heap.xmlRemove, he, this]
  · intro hm
    have : ¬ (h.children e).any (h.pyEq c) = true := by
      rw [heq, List.any_eq_true]; rintro ⟨x, hx, hxe⟩; simp at hxe; exact hm (hxe ▸ hx)
    simp [Heap.xmlRemove, he, this]

/-- C26 for text when no other child has the same characters: again exactly that node goes. -/
theorem C26_remove_distinct_text_partial {h h' : Heap} {e c : Id} {s : Str} {q : Option Id}
    (hc : h.obj c = some (.text s q)) (hmem : c ∈ h.children e)
    (hd : ∀ d ∈ h.children e, ∀ q', h.obj d = some (.text s q') → d = c)
    (hok : h.xmlRemove e c = .ok h') :
    h'.children e = (h.children e).erase c ∧ h'.xmlParent c = none ∧
    (∀ k, k ≠ e → k ≠ c → h'.obj k = h.obj k) := by
  simp only [Heap.xmlRemove] at hok
  cases ho : h.obj e with
  | none => rw [ho] at hok; cases hok
  | some o =>
    cases o with
    | text s p => rw [ho] at hok; cases hok
    | elem n as cs p =>
      rw [ho] at hok
      have hce : h.children e = cs := by simp [Heap.children, ho, Obj.kids]
      rw [hce] at hd hmem ⊢
      simp only [hce] at hok
      have hne : ¬ e = c := by rintro rfl; rw [ho] at hc; cases hc
      have hne' : ¬ c = e := fun x => hne x.symm
      have heq : ∀ d ∈ cs, h.pyEq c d = (c == d) := by
        intro d hdm
        by_cases hcd : c = d
        · simp [Heap.pyEq, hcd]
        · simp only [Heap.pyEq, hc]
          cases hdo : h.obj d with
          | none => simp
          | some od =>
            cases od with
            | elem => simp
            | text s' q' =>
              by_cases hs : s = s'
              · subst hs; exact absurd (hd d hdm q' hdo).symm hcd
              · simp [hs]
      have her : cs.eraseP (h.pyEq c) = cs.erase c := by
        rw [List.erase_eq_eraseP c cs]
        clear hok hce ho hmem hd
        induction cs with
        | nil => rfl
        | cons d ds ih =>
          rw [List.eraseP_cons, List.eraseP_cons, heq d (by simp), ih (fun x hx => heq x (by simp [hx]))]
      have hm : cs.any (h.pyEq c) = true := by
        rw [List.any_eq_true]; exact ⟨c, hmem, by simp [Heap.pyEq]⟩
      rw [if_pos hm, her] at hok
      simp only [Except.ok.injEq] at hok
      have hu : h.unlink c = h.set c (.text s none) := by simp [Heap.unlink, hc]
      have hobj := fun k => setChildren_obj (h := h.set c (.text s none)) (e := e) (n := n) (as := as) (cs := cs)
        (p := p) (by rw [Heap.set_obj', if_neg hne, ho]) (cs.erase c) k
      rw [hu] at hok
      rw [← hok]
      refine ⟨?_, ?_, ?_⟩
      · simp only [Heap.children, hobj]; simp [Obj.kids]
      · simp only [Heap.xmlParent, hobj]; simp [hne', Heap.set_obj', Obj.link, Heap.deref]
      · intro k h1 h2; rw [hobj]; simp [h1, h2, Heap.set_obj']

/-- The element with two equal text children of the counterexample: `e = element('a')`,
`e.xml_append('x')`, `e.xml_append('x')`. Identities 0 (the element), 1 and 2 (the texts). -/
def exTwins : Heap := ⟨3, fun i =>
  if i = 0 then some (.elem ['a'] [] [1, 2] none) else if i = 1 then some (.text ['x'] (some 0))
  else if i = 2 then some (.text ['x'] (some 0)) else none⟩

theorem exTwins_made : ∃ h1 h2,
    h1 = (Heap.empty.newElement ['a'] []).2 ∧ h1.xmlAppend 0 (.str ['x']) = .ok h2 ∧
    ∃ h3, h2.xmlAppend 0 (.str ['x']) = .ok h3 ∧ h3.next = exTwins.next ∧ ∀ k, h3.obj k = exTwins.obj k := by
  refine ⟨_, _, rfl, rfl, _, rfl, rfl, fun k => ?_⟩
  simp [exTwins, Heap.setChildren, Heap.empty, Heap.newElement, Heap.alloc, Heap.set, Heap.children,
    Obj.kids]
  repeat' split
  all_goals simp_all

/-- C26 is false for text: removing the second of two equal texts takes the first one out of the list, and
leaves the second listed with no `xml_parent`. -/
theorem C26_full_statement_is_false : ∃ h', exTwins.xmlRemove 0 2 = .ok h' ∧
    h'.children 0 = [2] ∧ h'.xmlParent 2 = none ∧ h'.xmlParent 1 = some 0 := by
  exact ⟨_, rfl, by decide, by decide, by decide⟩

/-- What C24 excludes: appending an element that already has a parent leaves it listed in two places. -/
theorem C24_attached_elements_excluded : ∃ h : Heap, MSteps Heap.empty h ∧ h.isElem 0 ∧ h.isElem 1 ∧ h.isElem 2 ∧
    ∃ h', h.xmlAppend 1 (.node 2) = .ok h' ∧ ¬ Consistent h' := by
  let h0 := (Heap.empty.newElement ['a'] []).2
  let h1 := (h0.newElement ['b'] []).2
  let h2 := (h1.newElement ['c'] []).2
  have s2 : MSteps Heap.empty h2 :=
    .tail (.tail (.tail .refl (.newElement _ ['a'] [])) (.newElement _ ['b'] [])) (.newElement _ ['c'] [])
  have hi : h2.isElem 2 := ⟨_, _, _, _, rfl⟩
  refine ⟨_, .tail s2 (.insertElement (e := 0) (c := 2) (i := -1) (h' := _) hi (by decide) rfl),
    ⟨_, _, _, _, rfl⟩, ⟨_, _, _, _, rfl⟩, ⟨_, _, _, _, rfl⟩, _, rfl, ?_⟩
  intro hc
  have := ((hc 0 (by decide)).2 2).1 (by decide)
  exact absurd this.2 (by decide)

/-! ### C27 -/

/-- C27: inserting a text node object at any position stores a new node with the same characters; the
object itself, its parent link, and every other child list are as before. Inserting an element stores that
very object. -/
theorem C27_text_is_copied {h h' : Heap} {e d : Id} {i : Int} (hb : Bounded h)
    (hok : h.xmlInsert e (.node d) i = .ok h') :
    (∀ s p, h.obj d = some (.text s p) →
      (∃ c, c ≠ d ∧ h.obj c = none ∧ c ∈ h'.children e ∧ h'.obj c = some (.text s (some e))) ∧
      h'.obj d = h.obj d ∧ h'.xmlParent d = h.xmlParent d ∧ (h'.children e).count d = (h.children e).count d) ∧
    (h.isElem d → (h'.children e).count d = (h.children e).count d + 1) := by
  obtain ⟨c, h1, h2, h3, h4, h5, h6⟩ := C25_insert_position hok hb
  have hperm := perm_insert (h.children e) (insertPos (h.children e).length i) c
  constructor
  · intro s p hd
    obtain ⟨hn, hc⟩ := h4 s (.inr ⟨d, p, rfl, hd⟩)
    have hcd : c ≠ d := by rintro rfl; rw [hd] at hn; cases hn
    have hde : d ≠ e := by
      rintro rfl
      simp [Heap.xmlInsert, hd] at hok
    have hsame := h5 d hde (fun x => hcd x.symm)
    refine ⟨⟨c, hcd, hn, by rw [h1]; simp, hc⟩, hsame, ?_, ?_⟩
    · simp only [Heap.xmlParent, hsame, hd, Option.bind_some, Obj.link]
      cases p with
      | none => rfl
      | some q =>
        simp only [Heap.deref]
        have : (h'.obj q).isSome = (h.obj q).isSome := by
          by_cases hq : q = e
          · subst hq
            obtain ⟨n, as, cs, p, _, _, he, _, _⟩ := insert_spec hok
            obtain ⟨o, ho, _⟩ := obj_some_of_children (h := h') (e := q) (c := c) (by rw [h1]; simp)
            rw [ho, he]; rfl
          · by_cases hqc : q = c
            · exfalso
              have := (hb d _ hd).2 q rfl
              -- the new node's identity is the counter
              obtain ⟨n, as, cs, p, c', h1', he, ha, hh⟩ := insert_spec hok
              simp only [Heap.attach, hd, Option.some.injEq, Prod.mk.injEq] at ha
              obtain ⟨rfl, rfl⟩ := ha
              have e1 : (h.alloc (.text s (some e))).obj e = some (.elem n as cs p) := by
                rw [Heap.alloc_obj', if_neg (Nat.ne_of_lt (hb e _ he).1), he]
              rw [hh, setChildren_obj e1, if_neg (fun x : c = e => hq (hqc.trans x)), Heap.alloc_obj'] at hc
              by_cases hcn : c = h.next
              · rw [hqc, hcn] at this; exact Nat.lt_irrefl _ this
              · rw [if_neg hcn, hn] at hc; cases hc
            · rw [h5 q hq hqc]
        rw [this]
    · rw [h1, hperm.count_eq, List.count_cons_of_ne hcd]
  · intro hel
    have hcd := h3 d rfl hel
    subst hcd
    rw [h1, hperm.count_eq, List.count_cons_self]

example : ∃ h', exTwins.xmlInsert 0 (.node 2) 1 = .ok h' ∧ h'.children 0 = [1, 3, 2] :=
  ⟨_, rfl, by decide⟩
example : ∃ h', exTwins.xmlInsert 0 (.str ['y']) (-2) = .ok h' ∧ h'.children 0 = [3, 1, 2] :=
  ⟨_, rfl, by decide⟩

end Amara
