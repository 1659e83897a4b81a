import Verif.Spec.AttrDict
/-
Attribute mappings: when references behave as values.
-/
namespace Amara

/-- The memory shows the values, no two elements have one dictionary, and a dictionary held and not yet handed over is
referred to from nowhere else. -/
structure ARel (m : DMem) (v : AVal) (used : List Nat) : Prop where
  attrs : m.elems.map m.dict = v.attrs
  nodup : m.elems.Nodup
  elt : ∀ d ∈ m.elems, d < m.dicts.length
  hlt : ∀ d ∈ m.held, d < m.dicts.length
  hlen : m.held.length = v.held.length
  hval : ∀ (h d : Nat), h ∉ used → m.held[h]? = some d →
    v.held[h]? = some (m.dict d) ∧ d ∉ m.elems ∧ ∀ h' : Nat, h' ≠ h → m.held[h']? ≠ some d

theorem ARel.mono {m v used used'} (h : ARel m v used) (hs : ∀ x ∈ used, x ∈ used') : ARel m v used' :=
  ⟨h.attrs, h.nodup, h.elt, h.hlt, h.hlen, fun i d hi hd => h.hval i d (fun hu => hi (hs i hu)) hd⟩

theorem dict_append_lt {l : List Attrs} {x : Attrs} {d : Nat} (h : d < l.length) :
    (l ++ [x]).getD d [] = l.getD d [] := by
  simp only [List.getD_eq_getElem?_getD]
  rw [List.getElem?_append_left h]

theorem dict_append_self {l : List Attrs} {x : Attrs} : (l ++ [x]).getD l.length [] = x := by
  simp [List.getD_eq_getElem?_getD]

theorem dict_modify_self {l : List Attrs} {f} {d : Nat} (h : d < l.length) :
    (l.modify d f).getD d [] = f (l.getD d []) := by
  simp only [List.getD_eq_getElem?_getD, List.getElem?_modify]
  rw [List.getElem?_eq_getElem h]; simp

theorem dict_modify_ne {l : List Attrs} {f} {d d' : Nat} (h : d ≠ d') :
    (l.modify d f).getD d' [] = l.getD d' [] := by
  simp only [List.getD_eq_getElem?_getD, List.getElem?_modify]
  simp [if_neg h]

theorem getElem?_mem' {α} {l : List α} {i : Nat} {x : α} (h : l[i]? = some x) : x ∈ l :=
  List.mem_of_getElem? h

/-- One more dictionary, referred to from nowhere. -/
theorem ARel.grow {m v used} (h : ARel m v used) (x : Attrs) : ARel { m with dicts := m.dicts ++ [x] } v used := by
  refine ⟨?_, h.nodup, ?_, ?_, h.hlen, ?_⟩
  · rw [← h.attrs]
    apply List.map_congr_left
    intro d hd
    exact dict_append_lt (h.elt d hd)
  · intro d hd; simp only [List.length_append]; exact Nat.lt_of_lt_of_le (h.elt d hd) (Nat.le_add_right _ _)
  · intro d hd; simp only [List.length_append]; exact Nat.lt_of_lt_of_le (h.hlt d hd) (Nat.le_add_right _ _)
  · intro i d hi hd
    obtain ⟨h1, h2, h3⟩ := h.hval i d hi hd
    refine ⟨?_, h2, h3⟩
    rw [h1]
    exact congrArg some (dict_append_lt (h.hlt d (getElem?_mem' hd))).symm

/-- A new element with a dictionary that no element has. -/
theorem ARel.addElem {m v used} (h : ARel m v used) {d : Nat} (hd : d < m.dicts.length) (hn : d ∉ m.elems)
    (hh : ∀ i : Nat, i ∉ used → m.held[i]? ≠ some d) :
    ARel { m with elems := m.elems ++ [d] } { v with attrs := v.attrs ++ [m.dict d] } used := by
  refine ⟨?_, ?_, ?_, h.hlt, h.hlen, ?_⟩
  · simp only [List.map_append, List.map_cons, List.map_nil]
    rw [← h.attrs]; rfl
  · rw [List.nodup_append]
    refine ⟨h.nodup, by simp, ?_⟩
    intro a ha b hb
    simp only [List.mem_singleton] at hb
    subst hb; rintro rfl; exact hn ha
  · intro a ha
    rw [List.mem_append, List.mem_singleton] at ha
    rcases ha with ha | rfl
    · exact h.elt a ha
    · exact hd
  · intro i a hi ha
    obtain ⟨h1, h2, h3⟩ := h.hval i a hi ha
    refine ⟨h1, ?_, h3⟩
    rw [List.mem_append, List.mem_singleton]
    rintro (h' | rfl)
    · exact h2 h'
    · exact hh i hi ha

theorem ARel.bare {m v used} (h : ARel m v used) : ARel m.bare { v with attrs := v.attrs ++ [[]] } used := by
  have hg := h.grow []
  have := hg.addElem (d := m.dicts.length) (by simp)
    (fun hm => Nat.lt_irrefl _ (h.elt _ hm))
    (fun i _ hi => Nat.lt_irrefl _ (h.hlt _ (getElem?_mem' hi)))
  have he : ({ m with dicts := m.dicts ++ [[]] } : DMem).dict m.dicts.length = [] := dict_append_self
  rw [he] at this
  exact this

/-- A new element with a dictionary of which nobody else knows. -/
theorem ARel.make {m v used} (h : ARel m v used) {d : Nat} (hd : d < m.dicts.length) (hn : d ∉ m.elems)
    (hh : ∀ i : Nat, i ∉ used → m.held[i]? ≠ some d) :
    ARel (m.make d) { v with attrs := v.attrs ++ [m.dict d] } used := by
  unfold DMem.make
  split
  · rename_i he; rw [he]; exact h.bare
  · exact h.addElem hd hn hh

theorem map_modify_nodup {l : List Nat} (hl : l.Nodup) {e d : Nat} (he : l[e]? = some d) (f : Attrs → Attrs)
    (g g' : Nat → Attrs) (h1 : g' d = f (g d)) (h2 : ∀ x, x ≠ d → g' x = g x) :
    l.map g' = (l.map g).modify e f := by
  apply List.ext_getElem?
  intro i
  rw [List.getElem?_modify, List.getElem?_map, List.getElem?_map]
  by_cases hi : e = i
  · subst hi; rw [he]; simp [h1]
  · simp only [if_neg hi]
    cases hx : l[i]? with
    | none => rfl
    | some x =>
      have hne : x ≠ d := by
        rintro rfl
        exact hi ((List.getElem?_inj (List.getElem?_eq_some_iff.1 he).1 hl).1 (he.trans hx.symm))
      simp [h2 x hne]

theorem nodup_set {l : List Nat} (hl : l.Nodup) {e d : Nat} (hd : d ∉ l) : (l.set e d).Nodup := by
  induction l generalizing e with
  | nil => simp
  | cons a l ih =>
    rw [List.nodup_cons] at hl
    simp only [List.mem_cons, not_or] at hd
    cases e with
    | zero => rw [List.set_cons_zero, List.nodup_cons]; exact ⟨hd.2, hl.2⟩
    | succ e =>
      rw [List.set_cons_succ, List.nodup_cons]
      refine ⟨?_, ih hl.2 hd.2⟩
      intro ha
      rcases List.mem_or_eq_of_mem_set ha with ha | ha
      · exact hl.1 ha
      · exact hd.1 ha.symm

theorem arel_step {m v used} (op : AOp) (r : List AOp) (h : ARel m v used) (hc : Careful v used (op :: r)) :
    ∃ used', ARel (m.step op) (v.step op) used' ∧ Careful (v.step op) used' r := by
  have hattr : ∀ e : Nat, v.attrs[e]? = (m.elems[e]?).map m.dict := by
    intro e; rw [← h.attrs, List.getElem?_map]
  have hel : m.elems.length = v.attrs.length := by rw [← h.attrs, List.length_map]
  cases op with
  | mapping as =>
    refine ⟨used, ?_, hc⟩
    have hg := h.grow as
    refine ⟨hg.attrs, hg.nodup, hg.elt, ?_, by simp [DMem.step, AVal.step, h.hlen], ?_⟩
    · intro d hd
      simp only [DMem.step, List.mem_append, List.mem_singleton] at hd
      rcases hd with hd | rfl
      · exact hg.hlt d hd
      · simp [DMem.step]
    · intro i d hi hd
      simp only [DMem.step] at hd
      by_cases hlt : i < m.held.length
      · rw [List.getElem?_append_left hlt] at hd
        obtain ⟨h1, h2, h3⟩ := hg.hval i d hi hd
        refine ⟨?_, h2, ?_⟩
        · simp only [AVal.step]
          rw [List.getElem?_append_left (by rw [← h.hlen]; exact hlt)]; exact h1
        · intro j hj hjd
          simp only [DMem.step] at hjd
          by_cases hjl : j < m.held.length
          · rw [List.getElem?_append_left hjl] at hjd; exact h3 j hj hjd
          · rw [List.getElem?_append_right (Nat.le_of_not_lt hjl), List.getElem?_singleton] at hjd
            split at hjd
            · cases hjd; exact Nat.lt_irrefl _ (h.hlt _ (getElem?_mem' hd))
            · cases hjd
      · rw [List.getElem?_append_right (Nat.le_of_not_lt hlt), List.getElem?_singleton] at hd
        split at hd
        · rename_i h0
          have hi' : i = m.held.length := by omega
          cases hd
          refine ⟨?_, fun hm => Nat.lt_irrefl _ (h.elt _ hm), ?_⟩
          · simp only [AVal.step]
            rw [hi', h.hlen, List.getElem?_append_right (Nat.le_refl _), Nat.sub_self]
            exact congrArg some dict_append_self.symm
          · intro j hj hjd
            simp only [DMem.step] at hjd
            by_cases hjl : j < m.held.length
            · rw [List.getElem?_append_left hjl] at hjd
              exact Nat.lt_irrefl _ (h.hlt _ (getElem?_mem' hjd))
            · rw [List.getElem?_append_right (Nat.le_of_not_lt hjl), List.getElem?_singleton] at hjd
              split at hjd
              · omega
              · cases hjd
        · cases hd
  | hold e =>
    simp only [Careful] at hc
    refine ⟨_, ?_, hc⟩
    cases he : m.elems[e]? with
    | none =>
      have hv : v.attrs[e]? = none := by rw [hattr, he]; rfl
      have hn : ¬ e < v.attrs.length := by rw [List.getElem?_eq_none_iff] at hv; omega
      simp only [DMem.step, AVal.step, he, hv]
      rw [if_neg hn]; exact h
    | some d =>
      have hv : v.attrs[e]? = some (m.dict d) := by rw [hattr, he]; rfl
      have hn : e < v.attrs.length := (List.getElem?_eq_some_iff.1 hv).1
      simp only [DMem.step, AVal.step, he, hv]
      rw [if_pos hn]
      refine ⟨h.attrs, h.nodup, h.elt, ?_, by simp [h.hlen], ?_⟩
      · intro x hx
        rw [List.mem_append, List.mem_singleton] at hx
        rcases hx with hx | rfl
        · exact h.hlt x hx
        · exact h.elt x (getElem?_mem' he)
      · intro i x hi hx
        simp only at hx
        have hlt : i < m.held.length := by
          have h1 := (List.getElem?_eq_some_iff.1 hx).1
          simp only [List.length_append, List.length_singleton] at h1
          have h2 : i ≠ v.held.length := fun h0 => hi (by simp [h0])
          have := h.hlen
          omega
        rw [List.getElem?_append_left hlt] at hx
        obtain ⟨h1, h2, h3⟩ := h.hval i x (fun hu => hi (List.mem_cons_of_mem _ hu)) hx
        refine ⟨?_, h2, ?_⟩
        · simp only
          rw [List.getElem?_append_left (by rw [← h.hlen]; exact hlt)]; exact h1
        · intro j hj hjd
          simp only at hjd
          by_cases hjl : j < m.held.length
          · rw [List.getElem?_append_left hjl] at hjd; exact h3 j hj hjd
          · rw [List.getElem?_append_right (Nat.le_of_not_lt hjl), List.getElem?_singleton] at hjd
            split at hjd
            · cases hjd; exact h2 (getElem?_mem' he)
            · cases hjd
  | element o =>
    cases o with
    | none => exact ⟨used, h.bare, hc⟩
    | some i =>
      simp only [Careful] at hc
      refine ⟨i :: used, ?_, hc.2⟩
      cases hd : m.held[i]? with
      | none =>
        have hv : v.held[i]? = none := by
          rw [List.getElem?_eq_none_iff] at hd ⊢; rw [← h.hlen]; exact hd
        simp only [DMem.step, AVal.step, hd, hv]
        exact h.mono (fun x hx => List.mem_cons_of_mem _ hx)
      | some d =>
        obtain ⟨h1, h2, h3⟩ := h.hval i d hc.1 hd
        simp only [DMem.step, AVal.step, hd, h1]
        refine (h.mono (fun x hx => List.mem_cons_of_mem i hx)).make (h.hlt d (getElem?_mem' hd)) h2 ?_
        intro j hj
        exact h3 j (fun h0 => hj (by simp [h0]))
  | clone e =>
    refine ⟨used, ?_, hc⟩
    cases he : m.elems[e]? with
    | none =>
      have hv : v.attrs[e]? = none := by rw [hattr, he]; rfl
      simp only [DMem.step, AVal.step, he, hv]; exact h
    | some d =>
      have hv : v.attrs[e]? = some (m.dict d) := by rw [hattr, he]; rfl
      simp only [DMem.step, AVal.step, he, hv]
      have hg := (h.grow (m.dict d)).make (d := m.dicts.length) (by simp)
        (fun hm => Nat.lt_irrefl _ (h.elt _ hm))
        (fun i _ hi => Nat.lt_irrefl _ (h.hlt _ (getElem?_mem' hi)))
      have hz : ({ m with dicts := m.dicts ++ [m.dict d] } : DMem).dict m.dicts.length = m.dict d :=
        dict_append_self
      rw [hz] at hg
      exact hg
  | change e f =>
    refine ⟨used, ?_, hc⟩
    cases he : m.elems[e]? with
    | none =>
      have hle : v.attrs.length ≤ e := by
        rw [List.getElem?_eq_none_iff] at he; omega
      simp only [DMem.step, AVal.step, he]
      rw [List.modify_eq_self hle]; exact h
    | some d =>
      have hdl := h.elt d (getElem?_mem' he)
      simp only [DMem.step, AVal.step, he]
      refine ⟨?_, h.nodup, ?_, ?_, h.hlen, ?_⟩
      · rw [← h.attrs]
        exact map_modify_nodup h.nodup he f m.dict _ (dict_modify_self hdl)
          (fun x hx => dict_modify_ne (Ne.symm hx))
      · intro x hx; simp only [DMem.modify, List.length_modify]; exact h.elt x hx
      · intro x hx; simp only [DMem.modify, List.length_modify]; exact h.hlt x hx
      · intro i x hi hx
        obtain ⟨h1, h2, h3⟩ := h.hval i x hi hx
        refine ⟨?_, h2, h3⟩
        rw [h1]
        refine congrArg some (dict_modify_ne ?_).symm
        rintro rfl; exact h2 (getElem?_mem' he)
  | changeHeld i f =>
    simp only [Careful] at hc
    refine ⟨used, ?_, hc.2⟩
    cases hd : m.held[i]? with
    | none =>
      have hle : v.held.length ≤ i := by
        rw [List.getElem?_eq_none_iff] at hd; have := h.hlen; omega
      simp only [DMem.step, AVal.step, hd]
      rw [List.modify_eq_self hle]; exact h
    | some d =>
      obtain ⟨h1, h2, h3⟩ := h.hval i d hc.1 hd
      have hdl := h.hlt d (getElem?_mem' hd)
      simp only [DMem.step, AVal.step, hd]
      refine ⟨?_, h.nodup, ?_, ?_, by simp [DMem.modify, h.hlen], ?_⟩
      · rw [← h.attrs]
        apply List.map_congr_left
        intro x hx
        exact dict_modify_ne (by rintro rfl; exact h2 hx)
      · intro x hx; simp only [DMem.modify, List.length_modify]; exact h.elt x hx
      · intro x hx; simp only [DMem.modify, List.length_modify]; exact h.hlt x hx
      · intro j x hj hx
        obtain ⟨g1, g2, g3⟩ := h.hval j x hj hx
        refine ⟨?_, g2, g3⟩
        simp only [List.getElem?_modify]
        by_cases hij : i = j
        · subst hij
          have : d = x := Option.some.inj (hd.symm.trans hx)
          subst this
          rw [h1]; simp only [if_true, Option.map_some, Option.map_eq_map]
          exact congrArg some (dict_modify_self hdl).symm
        · rw [g1]
          simp only [if_neg hij, Option.map_some, Option.map_eq_map]
          refine congrArg some (dict_modify_ne ?_).symm
          rintro rfl; exact h3 j (Ne.symm hij) hx
  | assign e i =>
    simp only [Careful] at hc
    refine ⟨i :: used, ?_, hc.2⟩
    cases hd : m.held[i]? with
    | none =>
      have hv : v.held[i]? = none := by
        rw [List.getElem?_eq_none_iff] at hd ⊢; rw [← h.hlen]; exact hd
      simp only [DMem.step, AVal.step, hd, hv]
      exact h.mono (fun x hx => List.mem_cons_of_mem _ hx)
    | some d =>
      obtain ⟨h1, h2, h3⟩ := h.hval i d hc.1 hd
      simp only [DMem.step, AVal.step, hd, h1]
      have hm := h.mono (fun x hx => List.mem_cons_of_mem i hx)
      refine ⟨?_, ?_, ?_, h.hlt, h.hlen, ?_⟩
      · simp only [List.map_set]; rw [← h.attrs]; rfl
      · exact nodup_set h.nodup h2
      · intro x hx
        rcases List.mem_or_eq_of_mem_set hx with hx | rfl
        · exact h.elt x hx
        · exact h.hlt x (getElem?_mem' hd)
      · intro j x hj hx
        obtain ⟨g1, g2, g3⟩ := hm.hval j x hj hx
        refine ⟨g1, ?_, g3⟩
        intro hx'
        rcases List.mem_or_eq_of_mem_set hx' with h' | rfl
        · exact g2 h'
        · exact h3 j (fun h0 => hj (by simp [h0])) hx

theorem arel_run : ∀ (p : List AOp) {m v used}, ARel m v used → Careful v used p →
    (m.run p).attributes = (v.run p).attrs
  | [], _, _, _, h, _ => h.attrs
  | op :: r, _, _, _, h, hc => by
    obtain ⟨used', h1, h2⟩ := arel_step op r h hc
    exact arel_run r h1 h2

theorem arel_empty : ARel DMem.empty ⟨[], []⟩ [] :=
  ⟨rfl, List.nodup_nil, (fun _ h => nomatch h), (fun _ h => nomatch h), rfl, (fun _ _ _ h => by cases h)⟩

/-! ### which programs are careful -/

theorem careful_append : ∀ (p : List AOp) {q v used}, (∀ op ∈ p, op.onElements) → Careful (v.run p) used q →
    Careful v used (p ++ q)
  | [], _, _, _, _, h => h
  | op :: r, q, v, used, hp, h => by
    have ih := careful_append r (q := q) (v := v.step op) (used := used)
      (fun o ho => hp o (List.mem_cons_of_mem _ ho)) h
    have hop := hp op (by simp)
    cases op with
    | element o =>
      cases o with
      | none => exact ih
      | some h => cases hop
    | clone e => exact ih
    | change e f => exact ih
    | mapping => cases hop
    | hold => cases hop
    | changeHeld => cases hop
    | assign => cases hop

theorem run_held_length : ∀ (p : List AOp) {v : AVal}, (∀ op ∈ p, op.onElements) →
    (v.run p).held.length = v.held.length
  | [], _, _ => rfl
  | op :: r, v, hp => by
    have ih := run_held_length r (v := v.step op) (fun o ho => hp o (List.mem_cons_of_mem _ ho))
    refine Eq.trans ih ?_
    have hop := hp op (by simp)
    cases op with
    | element o =>
      cases o with
      | none => rfl
      | some h => cases hop
    | clone e => simp only [AVal.step]; split <;> rfl
    | change e f => rfl
    | mapping => cases hop
    | hold => cases hop
    | changeHeld => cases hop
    | assign => cases hop

/-- One new mapping for at most one new element. -/
theorem careful_one {v : AVal} {used : List Nat} {n k : Nat} {as : Attrs} {q : List AOp} (hn : v.held.length = n)
    (hu : ∀ x ∈ used, x < n) (hk : k ≤ 1)
    (hq : ∀ v' used', v'.held.length = n + 1 → (∀ x ∈ used', x < n + 1) → Careful v' used' q) :
    Careful v used (.mapping as :: List.replicate k (.element (some n)) ++ q) := by
  have hl : (v.step (.mapping as)).held.length = n + 1 := by simp [AVal.step, hn]
  have hlt : ∀ x ∈ used, x < n + 1 := fun x hx => Nat.lt_succ_of_lt (hu x hx)
  simp only [List.cons_append, Careful]
  match k, hk with
  | 0, _ => exact hq _ _ hl hlt
  | 1, _ =>
    simp only [List.replicate, List.cons_append, List.nil_append, Careful]
    refine ⟨fun h => Nat.lt_irrefl _ (hu n h), hq _ _ ?_ ?_⟩
    · simp only [AVal.step]; split <;> simp [hn]
    · intro x hx
      rcases List.mem_cons.1 hx with rfl | hx
      · exact Nat.lt_succ_self _
      · exact hlt x hx

theorem careful_builder : ∀ (l : List (Event × List AOp)) {n : Nat} {v : AVal} {used : List Nat},
    v.held.length = n → (∀ x ∈ used, x < n) → (∀ x ∈ l, ∀ op ∈ x.2, op.onElements) →
    Careful v used (builderProgram n l)
  | [], _, _, _, _, _, _ => trivial
  | (ev, p) :: r, n, v, used, hn, hu, hp => by
    have hp1 : ∀ op ∈ p, op.onElements := hp (ev, p) (by simp)
    have hp2 : ∀ x ∈ r, ∀ op ∈ x.2, op.onElements := fun x hx => hp x (List.mem_cons_of_mem _ hx)
    cases ev with
    | start nm as anc =>
      simp only [builderProgram, builderOps]
      rw [List.append_assoc]
      refine careful_one (k := 1) hn hu (Nat.le_refl _) ?_
      intro v' used' h1 h2
      exact careful_append p hp1 (careful_builder r ((run_held_length p hp1).trans h1) h2 hp2)
    | chars s =>
      simp only [builderProgram, builderOps, List.nil_append]
      exact careful_append p hp1 (careful_builder r ((run_held_length p hp1).trans hn) hu hp2)
    | stop nm anc =>
      simp only [builderProgram, builderOps, List.nil_append]
      exact careful_append p hp1 (careful_builder r ((run_held_length p hp1).trans hn) hu hp2)

theorem handlePats_length {mv ev} : ∀ (pats : List (List (Stage Event) × Building)) (ix : Nat) (stack : List Event)
    {o stack' pats'}, handlePats mv ev ix stack pats = (o, some (stack', pats')) → pats'.length = pats.length
  | [], _, _, _, _, _, h => by
    simp only [handlePats, Prod.mk.injEq, Option.some.injEq] at h
    rw [← h.2.2]
  | (st, b) :: r, ix, stack, o, stack', pats', h => by
    simp only [handlePats] at h
    split at h
    · cases h
    · split at h
      · cases h
      · rename_i hr
        simp only [Prod.mk.injEq, Option.some.injEq] at h
        rw [← h.2.2]
        simp [handlePats_length r _ _ hr]

theorem handle_length {s s' : Sender} {mv ev} (h : (s.handle mv ev).2 = some s') : s'.pats.length = s.pats.length := by
  unfold Sender.handle at h
  split at h
  · rename_i hp
    simp only [Option.some.injEq] at h
    rw [← h]; exact handlePats_length _ _ _ hp
  · cases h

theorem builders_le {s s' : Sender} (h : s.pats.length ≤ 1) : s.builders s' ≤ 1 := by
  unfold Sender.builders
  refine Nat.le_trans List.countP_le_length ?_
  rw [List.length_zip]
  exact Nat.le_trans (Nat.min_le_left _ _) h

theorem careful_sender : ∀ (l : List (Event × List AOp)) {n : Nat} {s : Sender} {v : AVal} {used : List Nat},
    v.held.length = n → (∀ x ∈ used, x < n) → s.pats.length ≤ 1 → (∀ x ∈ l, ∀ op ∈ x.2, op.onElements) →
    Careful v used (senderProgram n s l)
  | [], _, _, _, _, _, _, _, _ => trivial
  | (ev, p) :: r, n, s, v, used, hn, hu, hs, hp => by
    have hp1 : ∀ op ∈ p, op.onElements := hp (ev, p) (by simp)
    have hp2 : ∀ x ∈ r, ∀ op ∈ x.2, op.onElements := fun x hx => hp x (List.mem_cons_of_mem _ hx)
    simp only [senderProgram]
    split
    · trivial
    · rename_i s' hh
      have hs' : s'.pats.length ≤ 1 := by rw [handle_length hh]; exact hs
      cases ev with
      | start nm as anc =>
        simp only [senderAttrOps]
        rw [List.append_assoc]
        refine careful_one hn hu (builders_le hs) ?_
        intro v' used' h1 h2
        exact careful_append p hp1 (careful_sender r ((run_held_length p hp1).trans h1) h2 hs' hp2)
      | chars t =>
        simp only [senderAttrOps, List.nil_append]
        exact careful_append p hp1 (careful_sender r ((run_held_length p hp1).trans hn) hu hs' hp2)
      | stop nm anc =>
        simp only [senderAttrOps, List.nil_append]
        exact careful_append p hp1 (careful_sender r ((run_held_length p hp1).trans hn) hu hs' hp2)

/-! ### programs in general -/

/-- All references are to dictionaries that exist. -/
structure DOk (m : DMem) : Prop where
  elt : ∀ d ∈ m.elems, d < m.dicts.length
  hlt : ∀ d ∈ m.held, d < m.dicts.length

theorem DOk.bare {m : DMem} (h : DOk m) : DOk m.bare := by
  constructor
  · intro d hd
    simp only [DMem.bare, List.mem_append, List.mem_singleton, List.length_append, List.length_singleton] at hd ⊢
    rcases hd with hd | rfl
    · have := h.elt d hd; omega
    · omega
  · intro d hd
    simp only [DMem.bare, List.length_append, List.length_singleton] at hd ⊢
    have := h.hlt d hd; omega

theorem DOk.make {m : DMem} (h : DOk m) {d : Nat} (hd : d < m.dicts.length) : DOk (m.make d) := by
  unfold DMem.make
  split
  · exact h.bare
  · refine ⟨?_, h.hlt⟩
    intro x hx
    rw [List.mem_append, List.mem_singleton] at hx
    rcases hx with hx | rfl
    · exact h.elt x hx
    · exact hd

theorem DOk.grow {m : DMem} (h : DOk m) (x : Attrs) : DOk { m with dicts := m.dicts ++ [x] } := by
  constructor <;> intro d hd <;> simp only [List.length_append, List.length_singleton]
  · have := h.elt d hd; omega
  · have := h.hlt d hd; omega

theorem DOk.step {m : DMem} (h : DOk m) (op : AOp) : DOk (m.step op) := by
  cases op with
  | mapping as =>
    refine ⟨(h.grow as).elt, ?_⟩
    intro d hd
    simp only [DMem.step, List.mem_append, List.mem_singleton, List.length_append, List.length_singleton] at hd ⊢
    rcases hd with hd | rfl
    · have := h.hlt d hd; omega
    · omega
  | hold e =>
    simp only [DMem.step]
    split
    · rename_i d he
      refine ⟨h.elt, ?_⟩
      intro x hx
      rw [List.mem_append, List.mem_singleton] at hx
      rcases hx with hx | rfl
      · exact h.hlt x hx
      · exact h.elt _ (getElem?_mem' he)
    · exact h
  | element o =>
    cases o with
    | none => exact h.bare
    | some i =>
      simp only [DMem.step]
      split
      · rename_i d hd; exact h.make (h.hlt d (getElem?_mem' hd))
      · exact h
  | clone e =>
    simp only [DMem.step]
    split
    · exact (h.grow _).make (by simp)
    · exact h
  | change e f =>
    simp only [DMem.step]
    split
    · exact ⟨fun x hx => by simp only [DMem.modify, List.length_modify]; exact h.elt x hx,
        fun x hx => by simp only [DMem.modify, List.length_modify]; exact h.hlt x hx⟩
    · exact h
  | changeHeld i f =>
    simp only [DMem.step]
    split
    · exact ⟨fun x hx => by simp only [DMem.modify, List.length_modify]; exact h.elt x hx,
        fun x hx => by simp only [DMem.modify, List.length_modify]; exact h.hlt x hx⟩
    · exact h
  | assign e i =>
    simp only [DMem.step]
    split
    · rename_i d hd
      refine ⟨?_, h.hlt⟩
      intro x hx
      rcases List.mem_or_eq_of_mem_set hx with hx | rfl
      · exact h.elt x hx
      · exact h.hlt _ (getElem?_mem' hd)
    · exact h

theorem DOk.run : ∀ (p : List AOp) {m : DMem}, DOk m → DOk (m.run p)
  | [], _, h => h
  | op :: r, _, h => DOk.run r (h.step op)

theorem dok_empty : DOk DMem.empty := ⟨(fun _ h => nomatch h), (fun _ h => nomatch h)⟩

end Amara
