import Verif.Lemmas.Edit
/-
Lemmas for C140: what the calls do to the objects, and to the trees.
-/
namespace Amara

/-- The trees of the program are there. -/
structure Holds (h : Heap) (F : Forest) : Prop where
  bounded : Bounded h
  trees : ∀ r t, F r = some t → Rep h none r t

/-! ### the objects after each call -/

theorem insertString_obj {h h' : Heap} (hb : Bounded h) {e : Id} {child : Child} {s : Str} {i : Int}
    (hs : IsString h child s) (hok : h.xmlInsert e child i = .ok h') :
    ∃ n as cs p, h.obj e = some (.elem n as cs p) ∧ h'.next = h.next + 1 ∧
      ∀ k, h'.obj k = if k = e then some (.elem n as (cs.take (insertPos cs.length i) ++ h.next :: cs.drop (insertPos cs.length i)) p)
        else if k = h.next then some (.text s (some e)) else h.obj k := by
  obtain ⟨n, as, cs, p, c, h1, ho, ha, rfl⟩ := insert_spec hok
  have hat : h.attach e child = some (h.next, h.alloc (.text s (some e))) := by
    rcases hs with rfl | ⟨d, q, rfl, hd⟩
    · rfl
    · simp [Heap.attach, hd]
  rw [hat] at ha
  cases ha
  have hne : e ≠ h.next := Nat.ne_of_lt (hb e _ ho).1
  have he1 : (h.alloc (.text s (some e))).obj e = some (.elem n as cs p) := by rw [Heap.alloc_obj', if_neg hne, ho]
  refine ⟨n, as, cs, p, ho, by rw [setChildren_next]; rfl, ?_⟩
  intro k
  rw [setChildren_obj he1, elem_children he1, Heap.alloc_obj']

theorem insertTree_obj {h h' : Heap} {e d : Id} {m bs ds q} {i : Int} (hd : h.obj d = some (.elem m bs ds q)) (hne : d ≠ e)
    (hok : h.xmlInsert e (.node d) i = .ok h') :
    ∃ n as cs p, h.obj e = some (.elem n as cs p) ∧ h'.next = h.next ∧
      ∀ k, h'.obj k = if k = e then some (.elem n as (cs.take (insertPos cs.length i) ++ d :: cs.drop (insertPos cs.length i)) p)
        else if k = d then some (.elem m bs ds (some e)) else h.obj k := by
  obtain ⟨n, as, cs, p, c, h1, ho, ha, rfl⟩ := insert_spec hok
  simp only [Heap.attach, hd, Option.some.injEq, Prod.mk.injEq] at ha
  obtain ⟨rfl, rfl⟩ := ha
  have he1 : (h.set d (.elem m bs ds (some e))).obj e = some (.elem n as cs p) := by
    rw [Heap.set_obj', if_neg (Ne.symm hne), ho]
  refine ⟨n, as, cs, p, ho, by rw [setChildren_next]; rfl, ?_⟩
  intro k
  rw [setChildren_obj he1, elem_children he1, Heap.set_obj']

/-- An object without its parent link. -/
def Obj.unlinked : Obj → Obj
  | .elem n as cs _ => .elem n as cs none
  | .text s _ => .text s none

theorem unlink_obj {h : Heap} {c : Id} {o : Obj} (ho : h.obj c = some o) (k : Id) :
    (h.unlink c).obj k = if k = c then some o.unlinked else h.obj k := by
  cases o <;> simp [Heap.unlink, ho, Obj.unlinked, Heap.set_obj']

theorem unlink_next (h : Heap) (c : Id) : (h.unlink c).next = h.next := by
  unfold Heap.unlink; split <;> rfl

theorem eraseP_at {α} (f : α → Bool) : ∀ (xs : List α) (k : Nat) (x : α), xs[k]? = some x → f x = true →
    (∀ j y, j < k → xs[j]? = some y → f y = false) → xs.eraseP f = xs.eraseIdx k := by
  intro xs
  induction xs with
  | nil => intro k x h; cases h
  | cons a xs ih =>
    intro k x hx hf hj
    cases k with
    | zero =>
      simp only [List.getElem?_cons_zero, Option.some.injEq] at hx
      subst hx
      simp [hf]
    | succ k =>
      have ha := hj 0 a (by omega) rfl
      rw [List.eraseP_cons_of_neg (by simp [ha]), List.eraseIdx_cons_succ, ih k x hx hf fun j y h1 h2 => hj (j + 1) y (by omega) h2]

theorem remove_obj {h h' : Heap} {e c : Id} {n as cs p o} {k : Nat} (he : h.obj e = some (.elem n as cs p))
    (hc : h.obj c = some o) (hne : c ≠ e) (hk : cs[k]? = some c) (hj : ∀ (j : Nat) y, j < k → cs[j]? = some y → h.pyEq c y = false)
    (hok : h.xmlRemove e c = .ok h') :
    h'.next = h.next ∧ ∀ i, h'.obj i = if i = e then some (.elem n as (cs.eraseIdx k) p)
      else if i = c then some o.unlinked else h.obj i := by
  have hself : h.pyEq c c = true := by simp [Heap.pyEq]
  have hany : (h.children e).any (h.pyEq c) = true := by
    rw [elem_children he, List.any_eq_true]
    exact ⟨c, List.mem_of_getElem? hk, hself⟩
  unfold Heap.xmlRemove at hok
  rw [he] at hok
  simp only [hany, if_true, Except.ok.injEq] at hok
  subst hok
  rw [elem_children he, eraseP_at _ cs k c hk hself hj]
  have he1 : (h.unlink c).obj e = some (.elem n as cs p) := by rw [unlink_obj hc, if_neg (Ne.symm hne), he]
  refine ⟨by rw [setChildren_next, unlink_next], fun i => ?_⟩
  rw [setChildren_obj he1, unlink_obj hc]

/-! ### lists of children -/

theorem repList_insert_at {h : Heap} {par d : Id} {u : Node} {cs : List Id} {ts : List Node} (m : Nat)
    (hl : RepList h par cs ts) (hd : Rep h (some par) d u) :
    RepList h par (cs.take m ++ d :: cs.drop m) (ts.take m ++ u :: ts.drop m) := by
  obtain ⟨h1, h2⟩ := (repList_iff ts cs).1 hl
  refine (repList_iff _ _).2 ⟨by simp [h1], ?_⟩
  intro j c t hc ht
  have hlen : (cs.take m).length = (ts.take m).length := by simp [h1]
  by_cases hj : j < (cs.take m).length
  · rw [List.getElem?_append_left hj] at hc
    rw [List.getElem?_append_left (hlen ▸ hj)] at ht
    rw [List.getElem?_take] at hc ht
    split at hc
    · rename_i hjm
      rw [if_pos hjm] at ht
      exact h2 j c t hc ht
    · cases hc
  · rw [List.getElem?_append_right (by omega)] at hc
    rw [List.getElem?_append_right (by omega), ← hlen] at ht
    cases hjj : j - (cs.take m).length with
    | zero =>
      rw [hjj] at hc ht
      simp only [List.getElem?_cons_zero, Option.some.injEq] at hc ht
      subst hc; subst ht; exact hd
    | succ l =>
      rw [hjj] at hc ht
      simp only [List.getElem?_cons_succ, List.getElem?_drop] at hc ht
      exact h2 _ c t hc ht

theorem repList_erase_at {h : Heap} {par : Id} {cs : List Id} {ts : List Node} (m : Nat)
    (hl : RepList h par cs ts) : RepList h par (cs.eraseIdx m) (ts.eraseIdx m) := by
  obtain ⟨h1, h2⟩ := (repList_iff ts cs).1 hl
  refine (repList_iff _ _).2 ⟨by simp [List.length_eraseIdx, h1], ?_⟩
  intro j c t hc ht
  rw [List.getElem?_eraseIdx] at hc ht
  split at hc
  · rename_i hj
    rw [if_pos hj] at ht
    exact h2 _ c t hc ht
  · rename_i hj
    rw [if_neg hj] at ht
    exact h2 _ c t hc ht

/-- The children of a node in a tree, if nothing below them is touched. -/
theorem kids_kept {h h' : Heap} (hb : Bounded h) {S} (ht : Touches h h' S) {e : Id} {cs : List Id} {ts : List Node}
    (hl : RepList h e cs ts) (hn : ∀ c ∈ cs, ∀ k, Reachable h [c] k → ¬ S k) : RepList h' e cs ts := by
  obtain ⟨h1, h2⟩ := (repList_iff ts cs).1 hl
  exact (repList_iff _ _).2 ⟨h1, fun j c t hc ht' =>
    touches_rep hb ht (h2 j c t hc ht') (hn c (List.mem_of_getElem? hc))⟩

/-! ### the forest after each call -/

theorem holds_put {h' : Heap} {F : Forest} {r : Id} {t : Node} (hb : Bounded h') (hr : Rep h' none r t)
    (ho : ∀ d u, d ≠ r → F d = some u → Rep h' none d u) : Holds h' (F.put r t) := by
  refine ⟨hb, fun d u hd => ?_⟩
  simp only [Forest.put] at hd
  by_cases hdr : d = r
  · subst hdr; rw [if_pos rfl] at hd; cases hd; exact hr
  · rw [if_neg hdr] at hd; exact ho d u hdr hd

/-- What is touched is in the tree of `r` (or is not in any of the trees concerned). -/
theorem others_stay {h h' : Heap} {F : Forest} (hF : Holds h F) {S} (ht : Touches h h' S) {r : Id} {t : Node} (hr : F r = some t)
    (hS : ∀ k, S k → Reachable h [r] k) : ∀ d u, d ≠ r → F d = some u → Rep h' none d u := by
  intro d u hd hu
  refine touches_rep hF.bounded ht (hF.trees d u hu) fun k hk hSk => ?_
  exact hd (same_top (hF.trees d u hu) (hF.trees r t hr) hk (hS k hSk))

/-- An element of a tree becomes another element, with the same children. -/
theorem holds_shell {h h' : Heap} {F : Forest} (hF : Holds h F) {r e : Id} {t : Node} {p : Path} (hr : F r = some t)
    (hl : h.locate r p = some e) (f : Node → Node) (g : Str → Attrs → Str × Attrs)
    (hf : ∀ n as ts, f (.elem n as ts) = .elem (g n as).1 (g n as).2 ts) (hft : ∀ s, f (.text s) = .text s)
    (hh : ∀ n as cs q, h.obj e = some (.elem n as cs q) → h' = h.set e (.elem (g n as).1 (g n as).2 cs q))
    (hh' : ∀ s q, h.obj e = some (.text s q) → h' = h) : Holds h' (F.put r (t.change f p)) := by
  have hrr := hF.trees r t hr
  obtain ⟨s, hs, hrs, hre⟩ := locate_rep p hrr hl
  cases s with
  | text s =>
    obtain ⟨q, ho, _⟩ := hrs
    have := hh' s q ho
    subst this
    have ht : Touches h' h' fun _ => False := ⟨Nat.le_refl _, fun _ _ => rfl, fun _ _ _ => rfl⟩
    refine holds_put hF.bounded ?_ (fun d u _ hu => hF.trees d u hu)
    refine rep_change hF.bounded ht hrr f (fun k hk => hk.elim) p (reach_self _ _) hrr hl ?_
    intro s' hs'
    rw [hs] at hs'
    cases hs'
    rw [hft]
    exact ⟨q, ho, rfl⟩
  | elem n as ts =>
    obtain ⟨cs, q, ho, h2, h3, h4⟩ := rep_elem_iff.1 hrs
    have := hh n as cs q ho
    subst this
    have ht : Touches h (h.set e (.elem (g n as).1 (g n as).2 cs q)) (· = e) := by
      refine ⟨Nat.le_refl _, fun i hi => ?_, fun k hk _ => ?_⟩
      · rw [Heap.set_obj']
        by_cases hie : i = e
        · subst hie; simp [ho]
        · rw [if_neg hie]
      · rw [Heap.set_obj', if_neg hk]
    have hb : Bounded (h.set e (.elem (g n as).1 (g n as).2 cs q)) := by
      intro i o hi
      rw [Heap.set_obj'] at hi
      by_cases hie : i = e
      · subst hie
        rw [if_pos rfl] at hi
        cases hi
        have hbo := hF.bounded i _ ho; exact ⟨hbo.1, fun p hp => hbo.2 p hp⟩
      · rw [if_neg hie] at hi
        exact hF.bounded i o hi
    refine holds_put hb ?_ (others_stay hF ht hr fun k hk => hk ▸ hre)
    refine rep_change hF.bounded ht hrr f (fun k hk _ => hk ▸ reach_self _ _) p (reach_self _ _) hrr hl ?_
    intro s' hs'
    rw [hs] at hs'
    cases hs'
    rw [hf]
    refine rep_elem_iff.2 ⟨cs, q, by rw [Heap.set_obj', if_pos rfl], ?_, h3, ?_⟩
    · exact parent_same hF.bounded ht (by rw [Heap.set_obj', if_pos rfl, ho]; rfl)
    · refine kids_kept hF.bounded ht h4 fun c hc k hk hke => ?_
      subst hke
      exact no_cycle hrr hre (by rw [elem_children ho]; exact hc) hk

theorem holds_insertString {h h' : Heap} {F : Forest} (hF : Holds h F) {r e : Id} {t : Node} {p : Path} {child : Child}
    {s : Str} {i : Int} (hr : F r = some t) (hl : h.locate r p = some e) (hs : IsString h child s)
    (hok : h.xmlInsert e child i = .ok h') : Holds h' (F.put r (t.change (Node.insertChild i (.text s)) p)) := by
  have hrr := hF.trees r t hr
  obtain ⟨x, hx, hrx, hre⟩ := locate_rep p hrr hl
  obtain ⟨n, as, cs, q, ho, hnext, hobj⟩ := insertString_obj hF.bounded hs hok
  have helt := (hF.bounded e _ ho).1
  have hnone : h.obj h.next = none := by
    cases hn : h.obj h.next with
    | none => rfl
    | some o => exact absurd (hF.bounded _ o hn).1 (Nat.lt_irrefl _)
  have ht : Touches h h' (· = e) := by
    refine ⟨by omega, fun i hi => ?_, fun k hk hlt => ?_⟩
    · rw [hobj]
      by_cases hie : i = e
      · subst hie; simp [ho]
      · rw [if_neg hie, if_neg (Nat.ne_of_lt hi)]
    · rw [hobj, if_neg hk, if_neg (Nat.ne_of_lt hlt)]
  have hb : Bounded h' := by
    intro i o hi
    rw [hobj] at hi
    rw [hnext]
    by_cases hie : i = e
    · subst hie
      rw [if_pos rfl] at hi
      cases hi
      have hbo := hF.bounded i _ ho
      exact ⟨Nat.lt_succ_of_lt hbo.1, fun p hp => Nat.lt_succ_of_lt (hbo.2 p hp)⟩
    · rw [if_neg hie] at hi
      by_cases hin : i = h.next
      · rw [if_pos hin] at hi
        cases hi
        exact ⟨hin ▸ Nat.lt_succ_self _, fun p hp => by cases hp; exact Nat.lt_succ_of_lt helt⟩
      · rw [if_neg hin] at hi
        exact ⟨Nat.lt_succ_of_lt (hF.bounded i o hi).1, fun p hp => Nat.lt_succ_of_lt ((hF.bounded i o hi).2 p hp)⟩
  refine holds_put hb ?_ (others_stay hF ht hr fun k hk => hk ▸ hre)
  refine rep_change hF.bounded ht hrr _ (fun k hk _ => hk ▸ reach_self _ _) p (reach_self _ _) hrr hl ?_
  intro s' hs'
  rw [hx] at hs'
  cases hs'
  cases x with
  | text y => obtain ⟨_, h1, _⟩ := hrx; rw [ho] at h1; cases h1
  | elem n' as' ts =>
    obtain ⟨cs', q', ho', h2, h3, h4⟩ := rep_elem_iff.1 hrx
    rw [ho] at ho'
    cases ho'
    have hlen := ((repList_iff ts cs).1 h4).1
    have hnew : h.next ∉ cs := fun hm => by
      have hm' : h.next ∈ h.children e := by rw [elem_children ho]; exact hm
      obtain ⟨_, u, hu⟩ := below_rep hrr (Reachable.child hre hm')
      obtain ⟨o, ho'⟩ := rep_alive hu
      rw [hnone] at ho'; cases ho'
    simp only [Node.insertChild]
    rw [← hlen]
    refine rep_elem_iff.2 ⟨_, q, by rw [hobj, if_pos rfl], ?_, ?_, ?_⟩
    · exact parent_same hF.bounded ht (by rw [hobj, if_pos rfl, ho]; rfl)
    · exact ((perm_insert cs _ h.next).nodup_iff).2 (List.nodup_cons.2 ⟨hnew, h3⟩)
    · refine repList_insert_at _ ?_ ?_
      · refine kids_kept hF.bounded ht h4 fun c hc k hk hke => ?_
        subst hke
        exact no_cycle hrr hre (by rw [elem_children ho]; exact hc) hk
      · have hne : h.next ≠ e := Nat.ne_of_gt helt
        have hon : h'.obj h.next = some (.text s (some e)) := by rw [hobj, if_neg hne, if_pos rfl]
        refine ⟨some e, hon, ?_⟩
        simp [Heap.xmlParent, hon, Obj.link, Heap.deref, hobj]

theorem holds_insertTree {h h' : Heap} {F : Forest} (hF : Holds h F) {r e d : Id} {t u : Node} {p : Path} {i : Int}
    (hr : F r = some t) (hl : h.locate r p = some e) (hd : F d = some u) (hu : u.isText = false) (hne : d ≠ r)
    (hok : h.xmlInsert e (.node d) i = .ok h') : Holds h' ((F.drop d).put r (t.change (Node.insertChild i u) p)) := by
  have hrr := hF.trees r t hr
  have hdd := hF.trees d u hd
  obtain ⟨x, hx, hrx, hre⟩ := locate_rep p hrr hl
  cases u with
  | text s => simp [Node.isText] at hu
  | elem m bs us =>
  obtain ⟨ds, l, hod, hd2, hd3, hd4⟩ := rep_elem_iff.1 hdd
  have hde : d ≠ e := by
    rintro rfl
    exact hne (same_top hdd hrr (reach_self _ _) hre)
  obtain ⟨n, as, cs, q, ho, hnext, hobj⟩ := insertTree_obj hod hde hok
  have ht : Touches h h' (fun k => k = e ∨ k = d) := by
    refine ⟨by omega, fun i hi => ?_, fun k hk hlt => ?_⟩
    · rw [hobj]
      by_cases hie : i = e
      · subst hie; simp [ho]
      · rw [if_neg hie]
        by_cases hid : i = d
        · subst hid; simp [hod]
        · rw [if_neg hid]
    · rw [hobj, if_neg (fun x => hk (Or.inl x)), if_neg (fun x => hk (Or.inr x))]
  have hb : Bounded h' := by
    intro i o hi
    rw [hobj] at hi
    rw [hnext]
    by_cases hie : i = e
    · subst hie
      rw [if_pos rfl] at hi
      cases hi
      have hbo := hF.bounded i _ ho; exact ⟨hbo.1, fun p hp => hbo.2 p hp⟩
    · rw [if_neg hie] at hi
      by_cases hin : i = d
      · subst hin
        rw [if_pos rfl] at hi
        cases hi
        exact ⟨(hF.bounded i _ hod).1, fun p hp => by cases hp; exact (hF.bounded e _ ho).1⟩
      · rw [if_neg hin] at hi
        exact hF.bounded i o hi
  refine holds_put hb ?_ ?_
  · refine rep_change hF.bounded ht hrr _ ?_ p (reach_self _ _) hrr hl ?_
    · rintro k (rfl | rfl) hk
      · exact reach_self _ _
      · exact absurd (same_top hdd hrr (reach_self _ _) hk) hne
    intro s' hs'
    rw [hx] at hs'
    cases hs'
    cases x with
    | text y => obtain ⟨_, h1, _⟩ := hrx; rw [ho] at h1; cases h1
    | elem n' as' ts =>
      obtain ⟨cs', q', ho', h2, h3, h4⟩ := rep_elem_iff.1 hrx
      rw [ho] at ho'
      cases ho'
      have hlen := ((repList_iff ts cs).1 h4).1
      have hnew : d ∉ cs := fun hm =>
        hne (same_top hdd hrr (reach_self _ _) (.child hre (by rw [elem_children ho]; exact hm)))
      simp only [Node.insertChild]
      rw [← hlen]
      refine rep_elem_iff.2 ⟨_, q, by rw [hobj, if_pos rfl], ?_, ?_, ?_⟩
      · exact parent_same hF.bounded ht (by rw [hobj, if_pos rfl, ho]; rfl)
      · exact ((perm_insert cs _ d).nodup_iff).2 (List.nodup_cons.2 ⟨hnew, h3⟩)
      · refine repList_insert_at _ ?_ ?_
        · refine kids_kept hF.bounded ht h4 fun c hc k hk hke => ?_
          have hce : c ∈ h.children e := by rw [elem_children ho]; exact hc
          rcases hke with rfl | rfl
          · exact no_cycle hrr hre hce hk
          · exact hne (same_top hdd hrr (reach_self _ _) (reach_trans (.child hre hce) hk))
        · have hon : h'.obj d = some (.elem m bs ds (some e)) := by rw [hobj, if_neg hde, if_pos rfl]
          refine rep_elem_iff.2 ⟨ds, some e, hon, ?_, hd3, ?_⟩
          · simp [Heap.xmlParent, hon, Obj.link, Heap.deref, hobj]
          · refine kids_kept hF.bounded ht hd4 fun c hc k hk hke => ?_
            have hcd : c ∈ h.children d := by rw [elem_children hod]; exact hc
            rcases hke with rfl | rfl
            · exact hne (same_top hdd hrr (reach_trans (.child (reach_self _ _) hcd) hk) hre)
            · exact no_cycle hdd (reach_self _ _) hcd hk
  · intro y v hy hv
    simp only [Forest.drop] at hv
    by_cases hyd : y = d
    · rw [if_pos hyd] at hv; cases hv
    · rw [if_neg hyd] at hv
      refine touches_rep hF.bounded ht (hF.trees y v hv) fun k hk hSk => ?_
      rcases hSk with rfl | rfl
      · exact hy (same_top (hF.trees y v hv) hrr hk hre)
      · exact hyd (same_top (hF.trees y v hv) hdd hk (reach_self _ _))

theorem holds_remove {h h' : Heap} {F : Forest} (hF : Holds h F) {r e c : Id} {t u : Node} {p : Path} {k : Nat}
    (hr : F r = some t) (hl : h.locate r p = some e) (hlc : h.locate r (p ++ [k]) = some c) (hu : t.at? (p ++ [k]) = some u)
    (hfst : ∀ s, u = .text s → ∀ j, j < k → t.at? (p ++ [j]) ≠ some (.text s))
    (hok : h.xmlRemove e c = .ok h') : Holds h' ((F.put r (t.change (Node.eraseChild k) p)).put c u) := by
  have hrr := hF.trees r t hr
  obtain ⟨x, hx, hrx, hre⟩ := locate_rep p hrr hl
  obtain ⟨u', hu', hru, hrc⟩ := locate_rep (p ++ [k]) hrr hlc
  rw [hu] at hu'
  cases hu'
  have hkc := locate_snoc p hl hlc
  have hce : c ∈ h.children e := List.mem_of_getElem? hkc
  have hne : c ≠ e := by rintro rfl; exact no_cycle hrr hre hce (reach_self _ _)
  cases x with
  | text y => obtain ⟨_, h1, _⟩ := hrx; simp [Heap.children, h1, Obj.kids] at hce
  | elem n as ts =>
  obtain ⟨cs, q, ho, h2, h3, h4⟩ := rep_elem_iff.1 hrx
  rw [elem_children ho] at hkc hce
  obtain ⟨o, hoc⟩ := rep_alive hru
  obtain ⟨hlen, hall⟩ := (repList_iff ts cs).1 h4
  have hjs : ∀ (j : Nat) y, j < k → cs[j]? = some y → h.pyEq c y = false := by
    intro j y hj hy
    have hjl : j < cs.length := (List.getElem?_eq_some_iff.1 hy).1
    have htj : ts[j]? = some (ts[j]'(hlen ▸ hjl)) := List.getElem?_eq_getElem _
    have hcy : c ≠ y := by
      rintro rfl
      have := (List.getElem?_inj hjl h3).1 (hy.trans hkc.symm)
      omega
    have hry := hall j y _ hy htj
    have hat := at_snoc (k := j) p hx
    simp only [Node.xmlChildren] at hat
    simp only [Heap.pyEq, beq_eq_false_iff_ne.2 hcy, Bool.false_or]
    cases u with
    | elem m bs us => obtain ⟨_, _, h1, _⟩ := rep_elem_iff.1 hru; rw [h1]
    | text s =>
      obtain ⟨_, h1, _⟩ := hru
      rw [h1]
      cases hoy : h.obj y with
      | none => rfl
      | some oy =>
        cases oy with
        | elem => rfl
        | text s' q' =>
          simp only [beq_eq_false_iff_ne]
          rintro rfl
          refine hfst s rfl j hj ?_
          rw [hat, htj]
          generalize ts[j]'(hlen ▸ hjl) = w at hry
          cases w with
          | elem => obtain ⟨_, _, h5, _⟩ := rep_elem_iff.1 hry; rw [hoy] at h5; cases h5
          | text s'' => obtain ⟨_, h5, _⟩ := hry; rw [hoy] at h5; cases h5; rfl
  obtain ⟨hnext, hobj⟩ := remove_obj ho hoc hne hkc hjs hok
  have ht : Touches h h' (fun k => k = e ∨ k = c) := by
    refine ⟨by omega, fun i hi => ?_, fun k hk hlt => ?_⟩
    · rw [hobj]
      by_cases hie : i = e
      · subst hie; simp [ho]
      · rw [if_neg hie]
        by_cases hid : i = c
        · subst hid; simp [hoc]
        · rw [if_neg hid]
    · rw [hobj, if_neg (fun x => hk (Or.inl x)), if_neg (fun x => hk (Or.inr x))]
  have hb : Bounded h' := by
    intro i o' hi
    rw [hobj] at hi
    rw [hnext]
    by_cases hie : i = e
    · subst hie
      rw [if_pos rfl] at hi
      cases hi
      have hbo := hF.bounded i _ ho; exact ⟨hbo.1, fun p hp => hbo.2 p hp⟩
    · rw [if_neg hie] at hi
      by_cases hin : i = c
      · subst hin
        rw [if_pos rfl] at hi
        cases hi
        refine ⟨(hF.bounded i _ hoc).1, fun p hp => ?_⟩
        cases o <;> cases hp
      · rw [if_neg hin] at hi
        exact hF.bounded i o' hi
  have hcr : c ≠ r := by
    rintro rfl
    have := (rep_kids hrr hre).2 c (by rw [elem_children ho]; exact hce)
    rw [rep_parent hrr] at this
    cases this
  have hoc' : h'.obj c = some o.unlinked := by rw [hobj, if_neg hne, if_pos rfl]
  have hpc : h'.xmlParent c = none := by
    cases o <;> simp [Heap.xmlParent, hoc', Obj.unlinked, Obj.link, Heap.deref]
  refine holds_put hb ?_ ?_
  · cases u with
    | text s =>
      obtain ⟨_, h1, _⟩ := hru
      rw [hoc] at h1
      cases h1
      exact ⟨none, hoc', hpc⟩
    | elem m bs us =>
      obtain ⟨ds, l, h1, _, hd3, hd4⟩ := rep_elem_iff.1 hru
      rw [hoc] at h1
      cases h1
      refine rep_elem_iff.2 ⟨ds, none, hoc', hpc, hd3, ?_⟩
      refine kids_kept hF.bounded ht hd4 fun d hd k hk hke => ?_
      have hdc : d ∈ h.children c := by rw [elem_children hoc]; exact hd
      have hce' : c ∈ h.children e := by rw [elem_children ho]; exact hce
      rcases hke with rfl | rfl
      · exact no_cycle hrr hre hce' (reach_trans (.child (reach_self _ _) hdc) hk)
      · exact no_cycle hrr hrc hdc hk
  · intro y v hy hv
    simp only [Forest.put] at hv
    by_cases hyr : y = r
    · subst hyr
      rw [if_pos rfl] at hv
      cases hv
      refine rep_change hF.bounded ht hrr _ ?_ p (reach_self _ _) hrr hl ?_
      · rintro k (rfl | rfl) hk
        · exact reach_self _ _
        · exact .child (reach_self _ _) (by rw [elem_children ho]; exact hce)
      intro s' hs'
      rw [hx] at hs'
      cases hs'
      simp only [Node.eraseChild]
      refine rep_elem_iff.2 ⟨_, q, by rw [hobj, if_pos rfl], ?_, List.Nodup.eraseIdx k h3, ?_⟩
      · exact parent_same hF.bounded ht (by rw [hobj, if_pos rfl, ho]; rfl)
      · obtain ⟨hl1, hl2⟩ := (repList_iff _ _).1 (repList_erase_at k h4)
        refine (repList_iff _ _).2 ⟨hl1, fun j c' t' hc' ht' => ?_⟩
        refine touches_rep hF.bounded ht (hl2 j c' t' hc' ht') fun z hz hSz => ?_
        have hc'm := List.mem_of_getElem? hc'
        have hc'e : c' ∈ h.children e := by rw [elem_children ho]; exact List.mem_of_mem_eraseIdx hc'm
        have hce' : c ∈ h.children e := by rw [elem_children ho]; exact hce
        rcases hSz with rfl | rfl
        · exact no_cycle hrr hre hc'e hz
        · have := one_child hrr hre hce' hc'e (reach_self _ _) hz
          subst this
          rw [List.getElem?_eraseIdx] at hc'
          have hkl : k < cs.length := (List.getElem?_eq_some_iff.1 hkc).1
          split at hc'
          · rename_i hjk
            have := (List.getElem?_inj hkl h3).1 (hkc.trans hc'.symm)
            omega
          · have := (List.getElem?_inj hkl h3).1 (hkc.trans hc'.symm)
            omega
    · rw [if_neg hyr] at hv
      refine touches_rep hF.bounded ht (hF.trees y v hv) fun k hk hSk => ?_
      rcases hSk with rfl | rfl
      · exact hyr (same_top (hF.trees y v hv) hrr hk hre)
      · exact hyr (same_top (hF.trees y v hv) hrr hk hrc)

end Amara
