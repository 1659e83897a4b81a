import Verif.Spec.Pattern
/-
Lemmas about the pattern automaton.
-/
namespace Amara

variable {α : Type} {look : α → Option Str}

/-- The state, called with the elements of the path one after the other, arrives at `MATCHED_STATE` with the
last one. -/
def firstAt (look : α → Option Str) : List (Stage α) → List α → Bool
  | [], xs => xs.isEmpty
  | _ :: _, [] => false
  | s :: r, x :: xs =>
    match patStep look (s :: r) x with
    | .to st => firstAt look st xs
    | _ => false

theorem patStep_single {s : Stage α} (hs : s ≠ .dstar) (r : List (Stage α)) (x : α) :
    (s.Accepts look x ∧ patStep look (s :: r) x = .to r) ∨ (¬ s.Accepts look x ∧ patStep look (s :: r) x = .none) := by
  cases s with
  | dstar => exact absurd rfl hs
  | name n =>
    by_cases h : look x = some n <;> simp [patStep, Stage.Accepts, h]
  | star =>
    cases h : look x <;> simp [patStep, Stage.Accepts, h]
  | oneOf fs =>
    have : (fs.any (Sub.test look x) = true) ↔ Stage.Accepts look x (.oneOf fs) := by
      simp only [Stage.Accepts, List.any_eq_true]
      constructor
      · rintro ⟨s, h1, h2⟩
        refine ⟨s, h1, ?_⟩
        cases s with
        | name n => simpa [Sub.test] using h2
        | fn f => exact h2
      · rintro ⟨s, h1, h2⟩
        refine ⟨s, h1, ?_⟩
        cases s with
        | name n => simpa [Sub.test] using h2
        | fn f => exact h2
    by_cases h : fs.any (Sub.test look x) = true
    · exact .inl ⟨this.1 h, by simp [patStep, h]⟩
    · exact .inr ⟨fun h' => h (this.2 h'), by simp [patStep, h]⟩

theorem lays_nil_iff {xs : List α} : Lays look [] xs ↔ xs = [] := by
  constructor
  · intro h; cases h; rfl
  · rintro rfl; exact .nil

theorem lays_single_iff {s : Stage α} (hs : s ≠ .dstar) {r : List (Stage α)} {xs : List α} :
    Lays look (s :: r) xs ↔ ∃ x ys, xs = x :: ys ∧ s.Accepts look x ∧ Lays look r ys := by
  constructor
  · intro h
    cases h with
    | one h1 h2 => exact ⟨_, _, rfl, h1, h2⟩
    | skip => exact absurd rfl hs
    | more => exact absurd rfl hs
  · rintro ⟨x, ys, rfl, h1, h2⟩; exact .one h1 h2

theorem lays_dstar_dstar {r : List (Stage α)} {xs : List α} :
    Lays look (.dstar :: .dstar :: r) xs ↔ Lays look (.dstar :: r) xs := by
  constructor
  · generalize hp : (Stage.dstar :: .dstar :: r : List (Stage α)) = p
    intro h
    induction h with
    | nil => cases hp
    | one h _ => cases hp; exact h.elim
    | skip h => cases hp; exact h
    | more h1 _ ih => cases hp; exact .more h1 (ih rfl)
  · exact .skip

theorem lays_dstar_front {r : List (Stage α)} {zs : List α} (h : Lays look (.dstar :: r) zs) :
    ∀ u : List α, (∀ x ∈ u, ∃ n, look x = some n) → Lays look (.dstar :: r) (u ++ zs) := by
  intro u
  induction u with
  | nil => intro _; exact h
  | cons a u ih =>
    intro hu
    obtain ⟨n, hn⟩ := hu a (by simp)
    exact .more hn (ih fun x hx => hu x (by simp [hx]))

theorem lays_dstar_split {s : Stage α} (hs : s ≠ .dstar) {q : List (Stage α)} {xs : List α}
    (h : Lays look (.dstar :: s :: q) xs) : ∃ u y zs, xs = u ++ y :: zs ∧ s.Accepts look y ∧ Lays look q zs := by
  generalize hp : (Stage.dstar :: s :: q : List (Stage α)) = p at h
  induction h with
  | nil => cases hp
  | one h _ => cases hp; exact h.elim
  | skip h =>
    cases hp
    obtain ⟨x, ys, rfl, h1, h2⟩ := (lays_single_iff hs).1 h
    exact ⟨[], x, ys, rfl, h1, h2⟩
  | @more _ _ x _ _ _ ih =>
    cases hp
    obtain ⟨u, y, zs, rfl, h1, h2⟩ := ih rfl
    exact ⟨x :: u, y, zs, rfl, h1, h2⟩

/-- What follows a committed '**' is found again, not later, if more elements come in front. -/
theorem lays_rest_front : ∀ {q : List (Stage α)}, SafeRest q → ∀ {zs : List α}, Lays look q zs →
    ∀ u : List α, (∀ x ∈ u ++ zs, ∃ n, look x = some n) → ∃ m, m <+: u ++ zs ∧ Lays look q m := by
  intro q
  induction q with
  | nil => intro _ zs _ u _; exact ⟨[], List.nil_prefix, .nil⟩
  | cons s q ih =>
    intro hq zs h u hu
    cases s with
    | name n => exact hq.elim
    | oneOf fs => exact hq.elim
    | dstar => exact ⟨_, List.prefix_rfl, lays_dstar_front h u fun x hx => hu x (by simp [hx])⟩
    | star =>
      obtain ⟨z, zs', rfl, h1, h2⟩ := (lays_single_iff (by simp)).1 h
      cases u with
      | nil => exact ⟨_, List.prefix_rfl, h⟩
      | cons a u =>
        obtain ⟨m, hm, hl⟩ := ih hq h2 (u ++ [z]) (fun x hx => hu x (by
          simp only [List.mem_append, List.mem_cons, List.not_mem_nil, or_false] at hx ⊢
          rcases hx with (hx | hx) | hx
          · exact .inl (.inr hx)
          · exact .inr (.inl hx)
          · exact .inr (.inr hx)))
        refine ⟨a :: m, ?_, .one (hu a (by simp)) hl⟩
        rw [List.cons_append, List.cons_prefix_cons]
        exact ⟨rfl, by simpa using hm⟩

theorem safe_of_rest : ∀ {q : List (Stage α)}, SafeRest q → Safe q := by
  intro q
  induction q with
  | nil => intro _; trivial
  | cons s q ih =>
    intro h
    cases s with
    | name n => exact h.elim
    | oneOf fs => exact h.elim
    | dstar => exact h
    | star => exact ih h

/-- '**' and what follows it directly. -/
theorem safeAfter_cases : ∀ {r : List (Stage α)}, SafeAfter r → ∃ s q, s ≠ .dstar ∧ SafeRest q ∧
    (∀ x n, look x = some n → patStep look (.dstar :: r) x =
      if (patStep look (s :: q) x matches .none) then .to (.dstar :: s :: q) else .to q) ∧
    (∀ xs, Lays look (.dstar :: r) xs ↔ Lays look (.dstar :: s :: q) xs) := by
  intro r
  induction r with
  | nil => intro h; exact h.elim
  | cons s r ih =>
    intro h
    by_cases hs : s = .dstar
    · subst hs
      obtain ⟨s, q, h1, h2, h3, h4⟩ := ih h
      refine ⟨s, q, h1, h2, fun x n hx => ?_, fun xs => ?_⟩
      · have := h3 x n hx
        rw [patStep, hx]
        simp only [Option.isSome_some, if_true]
        rw [this]
        rcases patStep_single (look := look) h1 q x with ⟨_, h2⟩ | ⟨_, h2⟩ <;> rw [h2] <;> rfl
      · rw [lays_dstar_dstar, h4]
    · refine ⟨s, r, hs, (by cases s <;> first | exact h | exact absurd rfl hs), fun x n hx => ?_, fun xs => Iff.rfl⟩
      rw [patStep, hx]
      simp only [Option.isSome_some, if_true]
      rcases patStep_single (look := look) hs r x with ⟨_, h2⟩ | ⟨_, h2⟩ <;> rw [h2] <;> rfl

/-- The automaton stops exactly at the outermost matches. -/
theorem firstAt_iff : ∀ (xs : List α), (∀ x ∈ xs, ∃ n, look x = some n) → ∀ (p : List (Stage α)), Safe p →
    (firstAt look p xs = true ↔ Outermost look p xs) := by
  intro xs
  induction xs with
  | nil =>
    intro _ p hp
    cases p with
    | nil =>
      simp only [firstAt, List.isEmpty_nil, true_iff]
      exact ⟨.nil, fun ys h1 h2 => absurd (List.prefix_nil.1 h1) h2⟩
    | cons s r =>
      simp only [firstAt, Bool.false_eq_true, false_iff]
      rintro ⟨h, _⟩
      by_cases hs : s = .dstar
      · subst hs
        obtain ⟨s, q, h1, _, _, h4⟩ := safeAfter_cases (look := look) hp
        obtain ⟨u, y, zs, he, _⟩ := lays_dstar_split h1 ((h4 []).1 h)
        simp at he
      · obtain ⟨x, ys, he, _⟩ := (lays_single_iff hs).1 h
        cases he
  | cons x xs ih =>
    intro hxs p hp
    have ih := ih fun y hy => hxs y (by simp [hy])
    obtain ⟨n, hn⟩ := hxs x (by simp)
    have hpre : ∀ ys : List α, ys <+: x :: xs → ys = [] ∨ ∃ zs, ys = x :: zs ∧ zs <+: xs := by
      intro ys hy
      cases ys with
      | nil => exact .inl rfl
      | cons y zs =>
        rw [List.cons_prefix_cons] at hy
        exact .inr ⟨zs, by rw [hy.1], hy.2⟩
    cases p with
    | nil =>
      simp only [firstAt, List.isEmpty_cons, Bool.false_eq_true, false_iff]
      rintro ⟨h, _⟩; cases h
    | cons s r =>
      by_cases hs : s = .dstar
      · subst hs
        obtain ⟨s, q, h1, h2, h3, h4⟩ := safeAfter_cases (look := look) hp
        have hO : Outermost look (.dstar :: r) (x :: xs) ↔ Outermost look (.dstar :: s :: q) (x :: xs) := by
          simp only [Outermost, h4]
        have hno : ¬ Lays look (.dstar :: s :: q) ([] : List α) := by
          intro h
          obtain ⟨u, y, zs, he, _⟩ := lays_dstar_split h1 h
          simp at he
        rw [hO, firstAt, h3 x n hn]
        rcases patStep_single (look := look) h1 q x with ⟨ha, hst⟩ | ⟨ha, hst⟩
        · -- committed
          simp only [hst, Bool.false_eq_true, if_false]
          rw [ih q (safe_of_rest h2)]
          have key : ∀ ys : List α, (∀ y ∈ ys, ∃ n, look y = some n) → Lays look (.dstar :: s :: q) (x :: ys) →
              ∃ m, m <+: ys ∧ Lays look q m := by
            intro ys hy hl
            cases hl with
            | one h _ => exact h.elim
            | skip h =>
              obtain ⟨_, _, he, _, h⟩ := (lays_single_iff h1).1 h
              cases he
              exact ⟨_, List.prefix_rfl, h⟩
            | more _ h =>
              obtain ⟨u, y, zs, rfl, _, h⟩ := lays_dstar_split h1 h
              obtain ⟨m, hm, hl⟩ := lays_rest_front h2 h (u ++ [y]) (by simpa using hy)
              exact ⟨m, by simpa using hm, hl⟩
          constructor
          · rintro ⟨a1, a2⟩
            refine ⟨.skip (.one ha a1), fun ys hy hne hl => ?_⟩
            rcases hpre ys hy with rfl | ⟨zs, rfl, hz⟩
            · exact hno hl
            · obtain ⟨m, hm, hl'⟩ := key zs (fun y hy' => hxs y (by
                simp only [List.mem_cons]; exact .inr (hz.subset hy'))) hl
              refine a2 m (hm.trans hz) ?_ hl'
              rintro rfl
              have := List.IsPrefix.eq_of_length hz (Nat.le_antisymm hz.length_le hm.length_le)
              exact hne (by rw [this])
          · rintro ⟨a1, a2⟩
            obtain ⟨m, hm, hl⟩ := key xs (fun y hy' => hxs y (by simp [hy'])) a1
            have : m = xs := by
              by_cases he : m = xs
              · exact he
              · exact absurd (Lays.skip (.one ha hl)) (a2 (x :: m) (by
                  rw [List.cons_prefix_cons]; exact ⟨rfl, hm⟩) (by simpa using he))
            subst this
            refine ⟨hl, fun ys hy hne hl' => ?_⟩
            exact a2 (x :: ys) (by rw [List.cons_prefix_cons]; exact ⟨rfl, hy⟩) (by simpa using hne)
              (.skip (.one ha hl'))
        · -- still looking
          simp only [hst, if_true]
          have hsafe : Safe (Stage.dstar :: s :: q) := by
            cases s <;> first | exact h2 | exact absurd rfl h1
          rw [ih _ hsafe]
          have key : ∀ ys : List α, Lays look (.dstar :: s :: q) (x :: ys) ↔ Lays look (.dstar :: s :: q) ys := by
            intro ys
            constructor
            · intro h
              cases h with
              | one h _ => exact h.elim
              | skip h =>
                obtain ⟨_, _, he, h, _⟩ := (lays_single_iff h1).1 h
                cases he
                exact absurd h ha
              | more _ h => exact h
            · exact .more hn
          constructor
          · rintro ⟨a1, a2⟩
            refine ⟨(key xs).2 a1, fun ys hy hne hl => ?_⟩
            rcases hpre ys hy with rfl | ⟨zs, rfl, hz⟩
            · exact hno hl
            · exact a2 zs hz (by rintro rfl; exact hne rfl) ((key zs).1 hl)
          · rintro ⟨a1, a2⟩
            refine ⟨(key xs).1 a1, fun ys hy hne hl => ?_⟩
            exact a2 (x :: ys) (by rw [List.cons_prefix_cons]; exact ⟨rfl, hy⟩) (by simpa using hne)
              ((key ys).2 hl)
      · have hsafe : Safe r := by cases s <;> first | exact hp | exact absurd rfl hs
        have hno : ¬ Lays look (s :: r) ([] : List α) := by
          intro h
          obtain ⟨_, _, he, _⟩ := (lays_single_iff hs).1 h
          cases he
        rw [firstAt]
        rcases patStep_single (look := look) hs r x with ⟨ha, hst⟩ | ⟨ha, hst⟩
        · simp only [hst]
          rw [ih r hsafe]
          have key : ∀ ys : List α, Lays look (s :: r) (x :: ys) ↔ Lays look r ys := by
            intro ys
            rw [lays_single_iff hs]
            constructor
            · rintro ⟨_, _, he, _, h⟩; cases he; exact h
            · exact fun h => ⟨_, _, rfl, ha, h⟩
          constructor
          · rintro ⟨a1, a2⟩
            refine ⟨(key xs).2 a1, fun ys hy hne hl => ?_⟩
            rcases hpre ys hy with rfl | ⟨zs, rfl, hz⟩
            · exact hno hl
            · exact a2 zs hz (by rintro rfl; exact hne rfl) ((key zs).1 hl)
          · rintro ⟨a1, a2⟩
            refine ⟨(key xs).1 a1, fun ys hy hne hl => ?_⟩
            exact a2 (x :: ys) (by rw [List.cons_prefix_cons]; exact ⟨rfl, hy⟩) (by simpa using hne)
              ((key ys).2 hl)
        · simp only [hst, Bool.false_eq_true, false_iff]
          rintro ⟨h, _⟩
          obtain ⟨_, _, he, h, _⟩ := (lays_single_iff hs).1 h
          cases he
          exact ha h

/-- Whatever the pattern, the automaton stops only at matches. -/
theorem firstAt_sound : ∀ (xs : List α) (p : List (Stage α)), (∀ x ∈ xs, ∃ n, look x = some n) →
    firstAt look p xs = true → Lays look p xs := by
  have H : ∀ (p : List (Stage α)) (x : α) st, patStep look p x = .to st →
      ∀ xs, Lays look st xs → Lays look p (x :: xs) ∨ (∃ r, p = .dstar :: r ∧ look x = none) := by
    intro p
    induction p with
    | nil => intro x st h; cases h
    | cons s r ih =>
      intro x st h xs hl
      by_cases hs : s = .dstar
      · subst hs
        cases hx : look x with
        | none => exact .inr ⟨r, rfl, rfl⟩
        | some n =>
          rw [patStep, hx] at h
          simp only [Option.isSome_some, if_true] at h
          cases hr : patStep look r x with
          | none => rw [hr] at h; cases h; exact .inl (.more hx hl)
          | typeError => rw [hr] at h; cases h
          | to st' =>
            rw [hr] at h; cases h
            rcases ih x _ hr xs hl with h | ⟨_, _, h⟩
            · exact .inl (.skip h)
            · rw [hx] at h; cases h
      · rcases patStep_single (look := look) hs r x with ⟨ha, hst⟩ | ⟨ha, hst⟩
        · rw [hst] at h; cases h; exact .inl (.one ha hl)
        · rw [hst] at h; cases h
  intro xs
  induction xs with
  | nil =>
    intro p _ h
    cases p with
    | nil => exact .nil
    | cons s r => cases h
  | cons x xs ih =>
    intro p hx h
    cases p with
    | nil => cases h
    | cons s r =>
      rw [firstAt] at h
      cases hst : patStep look (s :: r) x with
      | none => rw [hst] at h; cases h
      | typeError => rw [hst] at h; cases h
      | to st =>
        rw [hst] at h
        rcases H _ x st hst xs (ih st (fun y hy => hx y (by simp [hy])) h) with h | ⟨_, _, h⟩
        · exact h
        · obtain ⟨n, hn⟩ := hx x (by simp); rw [hn] at h; cases h

theorem callable_tail {s : Stage α} {r} (h : Callable (s :: r)) : r = [] ∨ Callable r := by
  cases r with
  | nil => exact .inl rfl
  | cons t r => exact .inr h

theorem callable_step : ∀ {p : List (Stage α)}, Callable p → ∀ x, patStep look p x = .none ∨
    ∃ st, patStep look p x = .to st ∧ (st = [] ∨ Callable st) := by
  intro p
  induction p with
  | nil => intro h; exact h.elim
  | cons s r ih =>
    intro h x
    by_cases hs : s = .dstar
    · subst hs
      have hr : Callable r := by
        rcases callable_tail h with rfl | hr
        · exact absurd rfl h
        · exact hr
      rw [patStep]
      cases hx : look x with
      | none => exact .inr ⟨_, rfl, .inr h⟩
      | some n =>
        simp only [Option.isSome_some, if_true]
        rcases ih hr x with h2 | ⟨st, h2, h3⟩
        · rw [h2]; exact .inr ⟨_, rfl, .inr h⟩
        · rw [h2]; exact .inr ⟨_, rfl, h3⟩
    · rcases patStep_single (look := look) hs r x with ⟨_, h2⟩ | ⟨_, h2⟩
      · exact .inr ⟨r, h2, callable_tail h⟩
      · exact .inl h2

theorem callable_of_safe : ∀ (n : Nat) (p : List (Stage α)), p.length ≤ n →
    (p ≠ [] → Safe p → Callable p) ∧ (SafeAfter p → Callable p) ∧ (p ≠ [] → SafeRest p → Callable p) := by
  intro n
  induction n with
  | zero =>
    intro p hp
    have : p = [] := List.length_eq_zero_iff.1 (Nat.le_zero.1 hp)
    subst this
    exact ⟨fun h => absurd rfl h, fun h => h.elim, fun h => absurd rfl h⟩
  | succ n ih =>
    intro p hp
    cases p with
    | nil => exact ⟨fun h => absurd rfl h, fun h => h.elim, fun h => absurd rfl h⟩
    | cons s r =>
      obtain ⟨i1, i2, i3⟩ := ih r (by simpa using hp)
      have last : s ≠ .dstar → (r = [] ∨ Callable r) → Callable (s :: r) := by
        rintro hs (rfl | h)
        · exact hs
        · cases r with
          | nil => exact h.elim
          | cons t r => exact h
      have cons : Callable r → Callable (s :: r) := by
        intro h
        cases r with
        | nil => exact h.elim
        | cons t r => exact h
      have rest : ∀ {P : Prop}, (r ≠ [] → P) → (r = [] ∨ P) := by
        intro P h
        by_cases hr : r = []
        · exact .inl hr
        · exact .inr (h hr)
      refine ⟨fun _ h => ?_, fun h => ?_, fun _ h => ?_⟩
      · cases s with
        | dstar => exact cons (i2 h)
        | name m => exact last (by simp) (rest fun hr => i1 hr h)
        | star => exact last (by simp) (rest fun hr => i1 hr h)
        | oneOf fs => exact last (by simp) (rest fun hr => i1 hr h)
      · cases s with
        | dstar => exact cons (i2 h)
        | name m => exact last (by simp) (rest fun hr => i3 hr h)
        | star => exact last (by simp) (rest fun hr => i3 hr h)
        | oneOf fs => exact last (by simp) (rest fun hr => i3 hr h)
      · cases s with
        | dstar => exact cons (i2 h)
        | star => exact last (by simp) (rest fun hr => i3 hr h)
        | name m => exact h.elim
        | oneOf fs => exact h.elim

theorem accepts_elem {s : Stage α} (hs : s ≠ .dstar) {r : List (Stage α)} {x : α} (h : s.Accepts look x) :
    patStep look (s :: r) x = .to r := by
  rcases patStep_single (look := look) hs r x with ⟨_, h2⟩ | ⟨h1, _⟩
  · exact h2
  · exact absurd h h1

theorem not_accepts_elem {s : Stage α} (hs : s ≠ .dstar) {r : List (Stage α)} {x : α} (h : ¬ s.Accepts look x) :
    patStep look (s :: r) x = .none := by
  rcases patStep_single (look := look) hs r x with ⟨h1, _⟩ | ⟨_, h2⟩
  · exact absurd h1 h
  · exact h2

theorem laysFirst_one {s : Stage α} (hs : s ≠ .dstar) {p : List (Stage α)} {xs : List α} :
    LaysFirst look (s :: p) xs ↔ ∃ x ys, xs = x :: ys ∧ s.Accepts look x ∧ LaysFirst look p ys := by
  constructor
  · intro h
    cases h with
    | one h1 h2 => exact ⟨_, _, rfl, h1, h2⟩
    | upto => exact absurd rfl hs
    | again => exact absurd rfl hs
  · rintro ⟨x, ys, rfl, h1, h2⟩; exact .one h1 h2

theorem laysFirst_again {p : List (Stage α)} {xs : List α} :
    LaysFirst look (.dstar :: .dstar :: p) xs ↔ LaysFirst look (.dstar :: p) xs := by
  constructor
  · intro h
    cases h with
    | one h => exact h.elim
    | upto h => exact absurd rfl h
    | again h => exact h
  · exact .again

theorem laysFirst_upto {s : Stage α} (hs : s ≠ .dstar) {p : List (Stage α)} {x : α} {xs : List α} :
    LaysFirst look (.dstar :: s :: p) (x :: xs) ↔
      (s.Accepts look x ∧ LaysFirst look p xs) ∨ (¬ s.Accepts look x ∧ LaysFirst look (.dstar :: s :: p) xs) := by
  constructor
  · generalize hxs : x :: xs = zs
    intro h
    cases h with
    | one h => exact h.elim
    | again => exact absurd rfl hs
    | @upto _ _ u y ys h1 h2 h3 h4 =>
      cases u with
      | nil =>
        simp only [List.nil_append, List.cons.injEq] at hxs
        obtain ⟨rfl, rfl⟩ := hxs
        exact .inl ⟨h3, h4⟩
      | cons a u =>
        simp only [List.cons_append, List.cons.injEq] at hxs
        obtain ⟨rfl, rfl⟩ := hxs
        exact .inr ⟨h2 x (by simp), .upto h1 (fun y hy => h2 y (by simp [hy])) h3 h4⟩
  · rintro (⟨h1, h2⟩ | ⟨h1, h2⟩)
    · exact .upto (u := []) hs (by simp) h1 h2
    · cases h2 with
      | one h => exact h.elim
      | again => exact absurd rfl hs
      | @upto _ _ u y ys h3 h4 h5 h6 =>
        exact .upto (u := x :: u) hs (by intro z hz; rcases List.mem_cons.1 hz with rfl | hz
                                         · exact h1
                                         · exact h4 z hz) h5 h6

theorem laysFirst_only_dstar {xs : List α} : ¬ LaysFirst look [.dstar] xs := by
  intro h
  cases h with
  | one h => exact h.elim

theorem laysFirst_nil {s : Stage α} {p : List (Stage α)} : ¬ LaysFirst look (s :: p) [] := by
  generalize hxs : ([] : List α) = xs
  generalize hq : s :: p = q
  intro h
  induction h generalizing s p with
  | nil => cases hq
  | one => cases hxs
  | @upto _ _ u => cases u <;> cases hxs
  | again _ ih => exact ih hxs rfl

theorem patStep_dstar_dstar (look : α → Option Str) (r : List (Stage α)) {x : α} {n : Str} (hx : look x = some n) :
    patStep look (.dstar :: .dstar :: r) x = patStep look (.dstar :: r) x := by
  rw [patStep]
  cases h : patStep look (.dstar :: r) x with
  | none =>
    simp only [patStep, hx, Option.isSome_some, if_true] at h
    split at h <;> cases h
  | to s => simp [hx]
  | typeError => simp [hx]

/-- On elements the automaton lays every '**' up to the first fit. -/
theorem firstAt_laysFirst : ∀ (xs : List α), (∀ x ∈ xs, ∃ n, look x = some n) → ∀ (p : List (Stage α)),
    (firstAt look p xs = true ↔ LaysFirst look p xs) := by
  intro xs
  induction xs with
  | nil =>
    intro _ p
    cases p with
    | nil => simp [firstAt, LaysFirst.nil]
    | cons s p => simp [firstAt, laysFirst_nil]
  | cons x xs ih =>
    intro hx p
    obtain ⟨n, hn⟩ := hx x (by simp)
    have ih := ih fun y hy => hx y (by simp [hy])
    induction p with
    | nil =>
      simp only [firstAt, List.isEmpty_cons, Bool.false_eq_true, false_iff]
      intro h; cases h
    | cons s p ihp =>
      by_cases hs : s = .dstar
      · subst hs
        cases p with
        | nil =>
          simp [firstAt, patStep, hn, laysFirst_only_dstar]
        | cons s p =>
          by_cases hs : s = .dstar
          · subst hs
            refine Iff.trans (Eq.to_iff ?_) (ihp.trans laysFirst_again.symm)
            simp only [firstAt, patStep_dstar_dstar look p hn]
          · rw [laysFirst_upto hs]
            by_cases ha : s.Accepts look x
            · simp only [firstAt, patStep, hn, Option.isSome_some, if_true, accepts_elem hs ha]
              simp [ha, ih]
            · simp only [firstAt, patStep, hn, Option.isSome_some, if_true, not_accepts_elem hs ha]
              simp [ha, ih]
      · rw [laysFirst_one hs]
        by_cases ha : s.Accepts look x
        · simp only [firstAt, accepts_elem hs ha, ih]
          constructor
          · intro h; exact ⟨x, xs, rfl, ha, h⟩
          · rintro ⟨y, ys, he, _, h⟩; cases he; exact h
        · simp only [firstAt, not_accepts_elem hs ha, Bool.false_eq_true, false_iff]
          rintro ⟨y, ys, he, h, _⟩; cases he; exact ha h

/-- A path is laid in one way only: nothing longer than a match is one. -/
theorem firstAt_prefix : ∀ (xs : List α) (p : List (Stage α)) (ys : List α), firstAt look p xs = true →
    firstAt look p (xs ++ ys) = true → ys = [] := by
  intro xs
  induction xs with
  | nil =>
    intro p ys h1 h2
    cases p with
    | nil => simpa [firstAt] using h2
    | cons s p => cases h1
  | cons x xs ih =>
    intro p ys h1 h2
    cases p with
    | nil => simp [firstAt] at h1
    | cons s p =>
      simp only [firstAt, List.cons_append] at h1 h2
      cases h : patStep look (s :: p) x with
      | none => simp [h] at h1
      | typeError => simp [h] at h1
      | to st => simp only [h] at h1 h2; exact ih st ys h1 h2

/-- Stages added at the end change nothing until the stages before them are done. -/
theorem patStep_append (d : List (Stage α)) : ∀ {q : List (Stage α)}, Callable q → ∀ x,
    patStep look (q ++ d) x = match patStep look q x with
      | .to st => .to (st ++ d)
      | .none => .none
      | .typeError => .typeError := by
  intro q
  induction q with
  | nil => intro h; exact h.elim
  | cons s q ih =>
    intro h x
    by_cases hs : s = .dstar
    · subst hs
      cases q with
      | nil => exact absurd rfl h
      | cons t q =>
        have := ih (show Callable (t :: q) from h) x
        simp only [List.cons_append] at this ⊢
        rw [patStep, this, patStep]
        cases look x with
        | none => simp
        | some n =>
          simp only [Option.isSome_some, if_true]
          cases patStep look (t :: q) x <;> rfl
    · simp only [List.cons_append]
      by_cases ha : s.Accepts look x
      · rw [accepts_elem hs ha, accepts_elem hs ha]
      · rw [not_accepts_elem hs ha, not_accepts_elem hs ha]

theorem patStep_dstars {x : α} {n : Str} (hx : look x = some n) : ∀ k,
    patStep look (List.replicate (k + 1) .dstar) x = .typeError := by
  intro k
  induction k with
  | zero => simp [List.replicate, patStep, hx]
  | succ k ih =>
    rw [List.replicate_succ, List.replicate_succ, patStep_dstar_dstar look _ hx, ← List.replicate_succ, ih]

end Amara
