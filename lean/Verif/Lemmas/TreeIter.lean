import Verif.Spec.TreeIter
import Verif.Lemmas.Pattern
/-
Lemmas about the tree sender: each pattern's part of it is followed separately.
-/
namespace Amara

/-- One pattern, with the decision to start building given as a function of the open elements: what is sent,
and what is being built. -/
def bStep (trig : List Event → Bool) (path : List Event) (b : Building) : Event → List Node × Building
  | .start n as anc =>
    if b.depth > 0 then ([], b.push n as)
    else if trig (path ++ [.start n as anc]) then ([], b.push n as) else ([], b)
  | .chars s => if b.depth > 0 then ([], { b with open_ := addChild (.text s) b.open_ }) else ([], b)
  | .stop _ _ =>
    match b.depth, b.open_ with
    | d + 1, (m, as, ts) :: r =>
      if d = 0 then ([.elem m as ts], ⟨0, r, b.base⟩)
      else ([], { b with depth := d, open_ := addChild (.elem m as ts) r })
    | _, _ => ([], b)

/-- The open elements after an event. -/
def pathStep (path : List Event) : Event → List Event
  | .start n as anc => path ++ [.start n as anc]
  | .chars _ => path
  | .stop _ _ => path.dropLast

def soloRun (trig : List Event → Bool) : List Event → Building → List Event →
    List (List Node) × List Event × Building
  | path, b, [] => ([], path, b)
  | path, b, ev :: r =>
    let x := soloRun trig (pathStep path ev) (bStep trig path b ev).2 r
    ((bStep trig path b ev).1 :: x.1, x.2)

/-- No end without a start. -/
def Poppable : List Event → List Event → Prop
  | _, [] => True
  | path, ev :: r => (match ev with | .stop _ _ => path ≠ [] | _ => True) ∧ Poppable (pathStep path ev) r

def pathRun (path : List Event) (evs : List Event) : List Event := evs.foldl pathStep path

theorem soloRun_append (trig) : ∀ (xs : List Event) (path b ys), soloRun trig path b (xs ++ ys) =
    ((soloRun trig path b xs).1 ++ (soloRun trig (soloRun trig path b xs).2.1 (soloRun trig path b xs).2.2 ys).1,
     (soloRun trig (soloRun trig path b xs).2.1 (soloRun trig path b xs).2.2 ys).2) := by
  intro xs
  induction xs with
  | nil => intro path b ys; rfl
  | cons x xs ih =>
    intro path b ys
    simp only [List.cons_append, soloRun, ih]

theorem soloRun_path (trig) : ∀ (xs : List Event) (path b), (soloRun trig path b xs).2.1 = pathRun path xs := by
  intro xs
  induction xs with
  | nil => intro path b; rfl
  | cons x xs ih => intro path b; simp only [soloRun, ih, pathRun, List.foldl_cons]

theorem poppable_append : ∀ (xs path ys : List Event), Poppable path xs → Poppable (pathRun path xs) ys →
    Poppable path (xs ++ ys) := by
  intro xs
  induction xs with
  | nil => intro path ys _ h; exact h
  | cons x xs ih => intro path ys h1 h2; exact ⟨h1.1, ih _ _ h1.2 h2⟩

theorem pathRun_append (path xs ys : List Event) : pathRun path (xs ++ ys) = pathRun (pathRun path xs) ys := by
  simp [pathRun]

theorem events_path :
    (∀ (x : Node) (anc : List Str) (path : List Event), pathRun path (x.events anc) = path ∧
      Poppable path (x.events anc)) ∧
    (∀ (xs : List Node) (anc : List Str) (path : List Event), pathRun path (Node.eventsList anc xs) = path ∧
      Poppable path (Node.eventsList anc xs)) := by
  apply Node.induct
  case elem =>
    intro n as cs ih anc path
    obtain ⟨h1, h2⟩ := ih (anc ++ [n]) (path ++ [.start n as anc])
    rw [Node.events]
    constructor
    · rw [pathRun, List.foldl_cons, ← pathRun, pathRun_append]
      show pathRun (pathRun (path ++ [.start n as anc]) _) _ = _
      rw [h1]
      simp [pathRun, pathStep]
    · refine ⟨trivial, poppable_append _ _ _ h2 ?_⟩
      show Poppable (pathRun (path ++ [.start n as anc]) _) _
      rw [h1]
      exact ⟨by simp, trivial⟩
  case text => intro s anc path; exact ⟨rfl, trivial, trivial⟩
  case nil => intro anc path; exact ⟨rfl, trivial⟩
  case cons =>
    intro x r ihx ihr anc path
    rw [Node.eventsList]
    obtain ⟨h1, h2⟩ := ihx anc path
    obtain ⟨h3, h4⟩ := ihr anc path
    exact ⟨by rw [pathRun_append, h1, h3], poppable_append _ _ _ h2 (by rw [h1]; exact h4)⟩

theorem marks_events :
    (∀ (x : Node) (p : Path) (anc : List Str), (x.marks p anc).map (·.1) = x.events anc) ∧
    (∀ (xs : List Node) (p : Path) (i : Nat) (anc : List Str), (Node.marksList p i anc xs).map (·.1) =
      Node.eventsList anc xs) := by
  apply Node.induct
  case elem => intro n as cs ih p anc; simp [Node.marks, Node.events, ih]
  case text => intro s p anc; rfl
  case nil => intro p i anc; rfl
  case cons => intro x r ihx ihr p i anc; simp [Node.marksList, Node.eventsList, ihx, ihr]

/-- While a subtree is being built, a node is added to it and nothing is sent. -/
theorem solo_build (trig : List Event → Bool) :
    (∀ (x : Node) (anc : List Str) (path : List Event) (d : Nat) (n as ts r q),
      soloRun trig path ⟨d + 1, (n, as, ts) :: r, q⟩ (x.events anc) =
        (List.replicate (x.events anc).length [], path, ⟨d + 1, (n, as, ts ++ [x]) :: r, q⟩)) ∧
    (∀ (xs : List Node) (anc : List Str) (path : List Event) (d : Nat) (n as ts r q),
      soloRun trig path ⟨d + 1, (n, as, ts) :: r, q⟩ (Node.eventsList anc xs) =
        (List.replicate (Node.eventsList anc xs).length [], path, ⟨d + 1, (n, as, ts ++ xs) :: r, q⟩)) := by
  apply Node.induct
  case elem =>
    intro n' as' cs ih anc path d n as ts r q
    have h0 : bStep trig path ⟨d + 1, (n, as, ts) :: r, q⟩ (.start n' as' anc) =
        ([], ⟨d + 1 + 1, (n', as', []) :: (n, as, ts) :: r, q⟩) := by
      simp [bStep, Building.push]
    rw [Node.events, soloRun, h0]
    simp only [pathStep, soloRun_append, ih, soloRun, bStep, List.nil_append]
    simp [addChild, List.replicate_succ, ← List.replicate_succ']
  case text =>
    intro s anc path d n as ts r q
    simp [Node.events, soloRun, bStep, addChild, pathStep]
  case nil => intro anc path d n as ts r q; simp [Node.eventsList, soloRun]
  case cons =>
    intro x xs ihx ihr anc path d n as ts r q
    rw [Node.eventsList, soloRun_append, ihx]
    simp only [ihr]
    simp [List.replicate_append_replicate]

theorem delivers_append {F : Path → Prop} {ms os} (h : Delivers F ms os) : ∀ {ms' os'}, Delivers F ms' os' →
    Delivers F (ms ++ ms') (os ++ os') := by
  induction h with
  | nil => intro _ _ h; exact h
  | inside _ ih => intro _ _ h; exact .inside (ih h)
  | match_ hF _ ih => intro _ _ h; exact .match_ hF (ih h)
  | other hF _ ih => intro _ _ h; exact .other hF (ih h)

/-- Where nothing satisfies `F`, nothing is sent. -/
theorem delivers_none {F : Path → Prop} :
    (∀ (x : Node) (p : Path) (anc : List Str), (∀ r, ¬ F (p ++ r)) →
      Delivers F (x.marks p anc) (List.replicate (x.events anc).length [])) ∧
    (∀ (xs : List Node) (p : Path) (i : Nat) (anc : List Str), (∀ j r, ¬ F (p ++ (i + j) :: r)) →
      Delivers F (Node.marksList p i anc xs) (List.replicate (Node.eventsList anc xs).length [])) := by
  apply Node.induct
  case elem =>
    intro n as cs ih p anc h
    rw [Node.marks, Node.events]
    simp only [List.length_cons, List.length_append, List.length_nil, List.replicate_succ]
    refine .inside ?_
    rw [← List.replicate_succ, ← List.replicate_append_replicate]
    refine delivers_append (ih p 0 _ fun j r => h _) (.other ?_ .nil)
    simpa using h []
  case text => intro s p anc _; exact .inside .nil
  case nil => intro p i anc _; exact .nil
  case cons =>
    intro x xs ihx ihr p i anc h
    rw [Node.marksList, Node.eventsList, List.length_append, ← List.replicate_append_replicate]
    refine delivers_append (ihx _ _ fun r => ?_) (ihr _ _ _ fun j r => ?_)
    · have := h 0 r; simpa using this
    · have := h (j + 1) r
      rwa [show i + (j + 1) = i + 1 + j from by omega] at this

/-- The path triggers, and no shorter one on the way (beyond `pi`) does. -/
def FirstFrom (trig : List Event → Bool) (pi t : List Event) : Prop :=
  trig (pi ++ t) = true ∧ ∀ t', t' <+: t → t' ≠ t → t' ≠ [] → trig (pi ++ t') = false

theorem opened_ne_nil {x : Node} {anc r t} (h : x.opened anc r = some t) : t ≠ [] := by
  cases x with
  | text s => simp [Node.opened] at h
  | elem n as cs =>
    cases r with
    | nil => simp only [Node.opened, Option.some.injEq] at h; subst h; simp
    | cons i r =>
      rw [Node.opened] at h
      cases hc : cs[i]? with
      | none => rw [hc] at h; cases h
      | some y =>
        rw [hc] at h
        simp only [Option.map_eq_some_iff] at h
        obtain ⟨_, _, rfl⟩ := h
        simp

/-- Idle, a sender of one pattern sends the first matches. -/
theorem solo_idle (trig : List Event → Bool) (F : Path → Prop) :
    (∀ (x : Node) (p : Path) (anc : List Str) (pi : List Event),
      (∀ r, F (p ++ r) ↔ ∃ t, x.opened anc r = some t ∧ FirstFrom trig pi t) →
      ∃ os, soloRun trig pi .idle (x.events anc) = (os, pi, .idle) ∧ Delivers F (x.marks p anc) os) ∧
    (∀ (xs : List Node) (p : Path) (i : Nat) (anc : List Str) (pi : List Event),
      (∀ j r, F (p ++ (i + j) :: r) ↔ ∃ x t, xs[j]? = some x ∧ x.opened anc r = some t ∧ FirstFrom trig pi t) →
      ∃ os, soloRun trig pi .idle (Node.eventsList anc xs) = (os, pi, .idle) ∧
        Delivers F (Node.marksList p i anc xs) os) := by
  apply Node.induct
  case elem =>
    intro n as cs ih p anc pi hF
    have hF0 : F p ↔ trig (pi ++ [.start n as anc]) = true := by
      have := hF []
      rw [List.append_nil] at this
      rw [this]
      constructor
      · rintro ⟨t, h1, h2⟩
        simp only [Node.opened, Option.some.injEq] at h1
        subst h1; exact h2.1
      · intro h
        refine ⟨_, rfl, h, fun t' h1 h2 h3 => ?_⟩
        obtain ⟨z, hz⟩ := h1
        cases t' with
        | nil => exact absurd rfl h3
        | cons a t' =>
          simp only [List.cons_append, List.cons.injEq, List.append_eq_nil_iff] at hz
          obtain ⟨rfl, rfl, rfl⟩ := hz
          exact absurd rfl h2
    by_cases ht : trig (pi ++ [.start n as anc]) = true
    · have h0 : bStep trig pi .idle (.start n as anc) = ([], ⟨0 + 1, [(n, as, [])], none⟩) := by
        simp [bStep, Building.idle, Building.push, ht]
      refine ⟨List.replicate ((Node.eventsList (anc ++ [n]) cs).length + 1) [] ++ [[.elem n as cs]], ?_, ?_⟩
      · rw [Node.events, soloRun, h0]
        simp only [pathStep, soloRun_append, (solo_build trig).2, soloRun, bStep, List.nil_append]
        simp [Building.idle, List.replicate_succ]
      · rw [Node.marks, List.replicate_succ, List.cons_append]
        refine .inside (delivers_append (delivers_none.2 _ _ _ _ fun j r hFr => ?_) (.match_ (hF0.2 ht) .nil))
        obtain ⟨t, h1, h2, h3⟩ := (hF _).1 hFr
        have h4 := opened_ne_nil h1
        rw [Node.opened] at h1
        cases hc : cs[0 + j]? with
        | none => rw [hc] at h1; cases h1
        | some y =>
          rw [hc] at h1
          simp only [Option.map_eq_some_iff] at h1
          obtain ⟨t1, h5, rfl⟩ := h1
          have := h3 [.start n as anc] ⟨t1, rfl⟩ (by
            intro h; exact opened_ne_nil h5 (by simpa using h.symm)) (by simp)
          rw [ht] at this; cases this
    · have ht' : trig (pi ++ [.start n as anc]) = false := by simpa using ht
      have h0 : bStep trig pi .idle (.start n as anc) = ([], .idle) := by
        simp [bStep, Building.idle, ht']
      obtain ⟨os, h1, h2⟩ := ih p 0 (anc ++ [n]) (pi ++ [.start n as anc]) fun j r => by
        rw [hF, Node.opened, Nat.zero_add]
        cases hc : cs[j]? with
        | none => simp
        | some y =>
          simp only [Option.map_eq_some_iff, Option.some.injEq]
          constructor
          · rintro ⟨_, ⟨t1, h1, rfl⟩, h2, h3⟩
            refine ⟨y, t1, rfl, h1, by simpa using h2, fun t' ⟨z, hz⟩ h5 h6 => ?_⟩
            have := h3 (.start n as anc :: t') ⟨z, by simp [hz]⟩ (by simpa using h5) (by simp)
            simpa using this
          · rintro ⟨_, t1, rfl, h1, h2, h3⟩
            refine ⟨_, ⟨t1, h1, rfl⟩, by simpa using h2, fun t' ⟨z, hz⟩ h5 h6 => ?_⟩
            cases t' with
            | nil => exact absurd rfl h6
            | cons a t' =>
              simp only [List.cons_append, List.cons.injEq] at hz
              obtain ⟨rfl, hz⟩ := hz
              by_cases h7 : t' = []
              · subst h7; exact ht'
              · have := h3 t' ⟨z, hz⟩ (by simpa using h5) h7
                simpa using this
      refine ⟨[] :: (os ++ [[]]), ?_, ?_⟩
      · rw [Node.events, soloRun, h0]
        simp only [pathStep, soloRun_append, h1, soloRun]
        simp [bStep, Building.idle]
      · rw [Node.marks]
        exact .inside (delivers_append h2 (.other (by rw [hF0]; exact ht) .nil))
  case text =>
    intro s p anc pi _
    exact ⟨[[]], by simp [Node.events, soloRun, bStep, Building.idle, pathStep], .inside .nil⟩
  case nil => intro p i anc pi _; exact ⟨[], rfl, .nil⟩
  case cons =>
    intro x xs ihx ihr p i anc pi hF
    obtain ⟨o1, h1, h2⟩ := ihx (p ++ [i]) anc pi fun r => by
      have := hF 0 r
      simpa using this
    obtain ⟨o2, h3, h4⟩ := ihr p (i + 1) anc pi fun j r => by
      have := hF (j + 1) r
      rw [show i + (j + 1) = i + 1 + j from by omega] at this
      simpa using this
    refine ⟨o1 ++ o2, ?_, ?_⟩
    · rw [Node.eventsList, soloRun_append, h1]; simp only [h3]
    · rw [Node.marksList]; exact delivers_append h2 h4

/-- The event stack shared by `n` patterns. -/
def dup (n : Nat) (path : List Event) : List Event := path.flatMap (List.replicate n)

/-- The shared stack after the first `i` patterns have handled the event. -/
def midStack (n : Nat) (path : List Event) (i : Nat) : Event → List Event
  | .start m as anc => dup n path ++ List.replicate i (.start m as anc)
  | .chars _ => dup n path
  | .stop _ _ => dup n path.dropLast ++ List.replicate (n - i) (path.getLast?.getD (.chars []))

/-- Pattern `k` of `n` decides to build at the end of this path. -/
def trigger (n k : Nat) (st : List (Stage Event)) (path : List Event) : Bool :=
  matchState st (stretched n k path) == some true

theorem stretched_snoc (n k : Nat) (ev : Event) : ∀ path, stretched n k (path ++ [ev]) =
    dup n path ++ List.replicate (k + 1) ev := by
  intro path
  induction path with
  | nil => simp [stretched, dup]
  | cons x xs ih =>
    cases xs with
    | nil => simp [stretched, dup]
    | cons y ys =>
      have : stretched n k (x :: y :: ys ++ [ev]) = List.replicate n x ++ stretched n k (y :: ys ++ [ev]) := rfl
      rw [this, ih]
      simp [dup]

theorem matchState_callable : ∀ (xs : List Event) {st}, Callable st → ∃ v, matchState st xs = some v := by
  intro xs
  induction xs with
  | nil => intro st _; exact ⟨_, rfl⟩
  | cons x xs ih =>
    intro st hst
    rw [matchState]
    rcases callable_step (look := Event.look) hst x with h | ⟨st', h, h'⟩
    · rw [h]; exact ⟨_, rfl⟩
    · rw [h]
      rcases h' with rfl | h'
      · exact ⟨_, rfl⟩
      · cases st' with
        | nil => exact ⟨_, rfl⟩
        | cons _ _ => exact ih h'

theorem handleOne_solo {n k : Nat} {st : List (Stage Event)} (hst : Callable st) (hk : k < n) {path : List Event}
    {b : Building} (hb : b.base = none) {ev : Event} (hev : Poppable path [ev]) :
    handleOne st k none (midStack n path k ev) b ev =
      ((bStep (trigger n k st) path b ev).1.map (SOut.send k),
        some (midStack n path (k + 1) ev, (bStep (trigger n k st) path b ev).2)) ∧
    (bStep (trigger n k st) path b ev).2.base = none := by
  obtain ⟨d, op, q⟩ := b
  simp only at hb
  subst hb
  cases ev with
  | start m as anc =>
    have hs : midStack n path k (.start m as anc) ++ [.start m as anc] =
        midStack n path (k + 1) (.start m as anc) := by
      simp [midStack, List.replicate_succ']
    have ht : trigger n k st (path ++ [.start m as anc]) =
        (matchState st (midStack n path (k + 1) (.start m as anc)) == some true) := by
      rw [trigger, stretched_snoc]; rfl
    simp only [handleOne, hs, bStep, ht]
    obtain ⟨v, hv⟩ := matchState_callable (midStack n path (k + 1) (.start m as anc)) hst
    rw [hv]
    by_cases hd : d > 0
    · simp [hd, Building.push]
    · cases v <;> simp [hd, Building.push]
  | chars s =>
    simp only [handleOne, bStep, midStack]
    by_cases hd : d > 0 <;> simp [hd]
  | stop m anc =>
    have hn : n - k = (n - (k + 1)) + 1 := by omega
    have h1 : midStack n path k (.stop m anc) ≠ [] := by
      simp only [midStack, hn, List.replicate_succ]
      simp
    have h2 : (midStack n path k (.stop m anc)).dropLast = midStack n path (k + 1) (.stop m anc) := by
      simp only [midStack, hn, List.replicate_succ']
      rw [← List.append_assoc, List.dropLast_concat]
    simp only [handleOne, h1, if_false, h2, bStep]
    cases d with
    | zero => simp
    | succ d =>
      cases op with
      | nil => simp
      | cons f r =>
        obtain ⟨m', as', ts'⟩ := f
        by_cases hd : d = 0 <;> simp [hd]

theorem sentTo_map (k j : Nat) (xs : List Node) :
    sentTo j (xs.map (SOut.send k)) = if k = j then xs else [] := by
  induction xs with
  | nil => simp [sentTo]
  | cons x xs ih =>
    simp only [sentTo, List.map_cons, List.filterMap_cons] at ih ⊢
    by_cases h : k = j <;> simp_all

theorem strays_map (k : Nat) (xs : List Node) : strays (xs.map (SOut.send k)) = [] := by
  induction xs with
  | nil => rfl
  | cons x xs ih => simp [strays]

theorem sentTo_append (k : Nat) (a b : List SOut) : sentTo k (a ++ b) = sentTo k a ++ sentTo k b := by
  simp [sentTo]

theorem strays_append (a b : List SOut) : strays (a ++ b) = strays a ++ strays b := by simp [strays]

/-- Pattern by pattern. -/
theorem handlePats_solo {n : Nat} {path : List Event} {ev : Event} (hev : Poppable path [ev]) :
    ∀ (pats : List (List (Stage Event) × Building)) (ix : Nat), ix + pats.length = n →
    (∀ p ∈ pats, Callable p.1 ∧ p.2.base = none) →
    ∃ os pats', handlePats (fun _ => none) ev ix (midStack n path ix ev) pats =
        (os, some (midStack n path n ev, pats')) ∧
      pats'.length = pats.length ∧ strays os = [] ∧ (∀ k, k < ix → sentTo k os = []) ∧
      ∀ j st b, pats[j]? = some (st, b) →
        pats'[j]? = some (st, (bStep (trigger n (ix + j) st) path b ev).2) ∧
        (bStep (trigger n (ix + j) st) path b ev).2.base = none ∧
        sentTo (ix + j) os = (bStep (trigger n (ix + j) st) path b ev).1 := by
  intro pats
  induction pats with
  | nil =>
    intro ix hix _
    simp only [List.length_nil, Nat.add_zero] at hix
    subst hix
    exact ⟨[], [], rfl, rfl, rfl, fun _ _ => rfl, fun j st b h => by simp at h⟩
  | cons p r ih =>
    intro ix hix hall
    obtain ⟨st, b⟩ := p
    obtain ⟨hst, hb⟩ := hall (st, b) (by simp)
    simp only [List.length_cons] at hix
    obtain ⟨h1, h2⟩ := handleOne_solo hst (by omega) hb hev (n := n) (k := ix)
    obtain ⟨os, pats', g1, g2, g3, g4, g5⟩ := ih (ix + 1) (by omega) fun p hp => hall p (by simp [hp])
    refine ⟨(bStep (trigger n ix st) path b ev).1.map (SOut.send ix) ++ os,
      (st, (bStep (trigger n ix st) path b ev).2) :: pats', ?_, ?_, ?_, ?_, ?_⟩
    · rw [handlePats, h1]
      simp only [g1]
    · simp [g2]
    · rw [strays_append, strays_map, g3]; rfl
    · intro k hk
      rw [sentTo_append, sentTo_map, if_neg (by omega), g4 k (by omega)]; rfl
    · intro j st' b' hj
      cases j with
      | zero =>
        simp only [List.getElem?_cons_zero, Option.some.injEq, Prod.mk.injEq] at hj
        obtain ⟨rfl, rfl⟩ := hj
        refine ⟨rfl, h2, ?_⟩
        rw [sentTo_append, sentTo_map, Nat.add_zero, if_pos rfl, g4 _ (by omega), List.append_nil]
      | succ j =>
        simp only [List.getElem?_cons_succ] at hj
        obtain ⟨k1, k2, k3⟩ := g5 j st' b' hj
        rw [show ix + (j + 1) = ix + 1 + j from by omega]
        refine ⟨by simpa using k1, k2, ?_⟩
        rw [sentTo_append, sentTo_map, if_neg (by omega), k3, List.nil_append]

theorem midStack_zero {n : Nat} {path : List Event} {ev : Event} (hev : Poppable path [ev]) :
    midStack n path 0 ev = dup n path := by
  cases ev with
  | start m as anc => simp [midStack]
  | chars s => rfl
  | stop m anc =>
    obtain ⟨hne, _⟩ := hev
    simp only at hne
    have := List.dropLast_concat_getLast hne
    simp only [midStack, Nat.sub_zero]
    conv => rhs; rw [← this]
    simp [dup, List.getLast?_eq_some_getLast hne]

theorem midStack_end {n : Nat} {path : List Event} {ev : Event} : midStack n path n ev = dup n (pathStep path ev) := by
  cases ev with
  | start m as anc => simp [midStack, dup, pathStep]
  | chars s => rfl
  | stop m anc => simp [midStack, pathStep]

/-- Every pattern of the sender evolves on its own. -/
theorem run_solo : ∀ (evs : List Event) (path : List Event) (pats : List (List (Stage Event) × Building)),
    Poppable path evs → (∀ p ∈ pats, Callable p.1 ∧ p.2.base = none) →
    ∃ os pats', Sender.run ⟨dup pats.length path, pats⟩ (quiet evs) =
        (os, some ⟨dup pats.length (pathRun path evs), pats'⟩) ∧
      pats'.length = pats.length ∧ (∀ o ∈ os, strays o = []) ∧ os.length = evs.length ∧
      ∀ k st b, pats[k]? = some (st, b) →
        pats'[k]? = some (st, (soloRun (trigger pats.length k st) path b evs).2.2) ∧
        os.map (sentTo k) = (soloRun (trigger pats.length k st) path b evs).1 := by
  intro evs
  induction evs with
  | nil =>
    intro path pats _ _
    exact ⟨[], pats, rfl, rfl, by simp, rfl, fun k st b h => ⟨h, rfl⟩⟩
  | cons ev r ih =>
    intro path pats hp hall
    have hp1 : Poppable path [ev] := ⟨hp.1, trivial⟩
    obtain ⟨o, pats', h1, h2, h3, _, h5⟩ := handlePats_solo (n := pats.length) hp1 pats 0 (Nat.zero_add _) hall
    rw [midStack_zero hp1, midStack_end] at h1
    have hall' : ∀ p ∈ pats', Callable p.1 ∧ p.2.base = none := by
      intro p hp
      obtain ⟨j, hj⟩ := List.getElem?_of_mem hp
      have hlt : j < pats.length := by
        rw [← h2]; exact (List.getElem?_eq_some_iff.1 hj).1
      obtain ⟨k1, k2, _⟩ := h5 j pats[j].1 pats[j].2 (List.getElem?_eq_getElem hlt)
      rw [hj] at k1
      injection k1 with k1
      subst k1
      exact ⟨(hall pats[j] (List.getElem_mem hlt)).1, k2⟩
    obtain ⟨os, pats'', g1, g2, g3, g4, g5⟩ := ih (pathStep path ev) pats' hp.2 hall'
    rw [h2] at g1 g2 g5
    refine ⟨o :: os, pats'', ?_, g2, ?_, by simp [g4], ?_⟩
    · simp only [quiet, List.map_cons, Sender.run, Sender.handle, h1]
      simp only [quiet] at g1
      rw [g1]
      rfl
    · intro x hx
      rcases List.mem_cons.1 hx with rfl | hx
      · exact h3
      · exact g3 x hx
    · intro k st b hk
      obtain ⟨k1, _, k3⟩ := h5 k st b hk
      rw [Nat.zero_add] at k1 k3
      obtain ⟨m1, m2⟩ := g5 k st _ k1
      exact ⟨by rw [m1]; rfl, by rw [List.map_cons, k3, m2]; rfl⟩

end Amara
