import Verif.Spec.XLiveAxes
import Verif.Lemmas.XLivePath
import Verif.Lemmas.XHeap
/-
Lemmas for Props/XLiveAxes.
-/
namespace Amara

/-! ### a suspended path looks only at nodes of the tree -/

/-- The nodes a suspended step holds, for the steps of a path. -/
def AxisGen.In (S : Id → Prop) : AxisGen → Prop
  | .child e _ | .self e | .start e => S e
  | .todo l => ∀ i ∈ l, S i
  | _ => False

/-- The same for a suspended path, with its predicates. -/
def PathGen.In (S : Id → Prop) (Q : (Nat → Heap → Id → Bool) → Prop) : PathGen → Prop
  | .step _ g => g.In S
  | .left l r => l.In S Q ∧ ∀ p ∈ r.preds, Q p
  | .right l r g => l.In S Q ∧ (∀ p ∈ r.preds, Q p) ∧ g.In S Q
  | .filter g p _ => g.In S Q ∧ Q p

theorem start_in {S : Id → Prop} {Q : (Nat → Heap → Id → Bool) → Prop} {e : Id} (he : S e) : ∀ (P : LivePath), (∀ p ∈ P.preds, Q p) → (P.start e).In S Q
  | .step a t, _ => by cases a <;> exact he
  | .slash l r, h => ⟨start_in he l fun p hp => h p (List.mem_append_left _ hp), fun p hp => h p (List.mem_append_right _ hp)⟩
  | .filter l p, h => ⟨start_in he l fun q hq => h q (List.mem_cons_of_mem _ hq), h p List.mem_cons_self⟩

/-- What comes next stays in the tree. -/
def PathOut.In (S : Id → Prop) (Q : (Nat → Heap → Id → Bool) → Prop) : PathOut → Prop
  | .pass g => g.In S Q
  | .give y g => S y ∧ g.In S Q
  | _ => True

section
variable {S : Id → Prop} {Q : (Nat → Heap → Id → Bool) → Prop} {h0 h : Heap} (hS : ∀ i, S i → ∀ c ∈ h0.children i, S c)
include hS

theorem axisRound_same (hh : ∀ i, S i → SameNode h0 h i) (t : Test) {g : AxisGen} (hg : g.In S) :
    axisRound t h g = axisRound t h0 g ∧ (PathOut.In S Q (match axisRound t h0 g with
      | .finished => .finished
      | .raised => .raised
      | .pass g' => .pass (.step t g')
      | .give y g' => .give y (.step t g'))) := by
  have hout : ∀ (c : Id) (g : AxisGen), S c → g.In S → t.out h c g = t.out h0 c g ∧ PathOut.In S Q (match t.out h0 c g with
      | .finished => .finished
      | .raised => .raised
      | .pass g' => .pass (.step t g')
      | .give y g' => .give y (.step t g')) := by
    intro c g hc hg
    have h1 := (same_takes (hh c hc) t).2.1
    unfold Test.out
    rw [h1]
    refine ⟨rfl, ?_⟩
    by_cases hl : t.live h0 c = true
    · rw [if_pos hl]; exact ⟨hc, hg⟩
    · rw [if_neg hl]; exact hg
  cases g with
  | child e k =>
    have he : S e := hg
    simp only [axisRound, (hh e he).1]
    cases hk : (h0.children e)[k]? with
    | none => exact ⟨rfl, trivial⟩
    | some c =>
      have hc : S c := hS e he c (List.mem_of_getElem? hk)
      simp only [(same_takes (hh c hc) t).2.2]
      split
      · exact ⟨rfl, he⟩
      · exact hout c _ hc he
  | self e => exact hout e _ hg hg
  | start e =>
    simp only [axisRound, (hh e hg).1]
    exact ⟨trivial, hS e hg⟩
  | todo l =>
    cases l with
    | nil => exact ⟨rfl, trivial⟩
    | cons c cs =>
      have hc : S c := hg c (by simp)
      simp only [axisRound, (hh c hc).1]
      refine hout c _ hc fun i hi => ?_
      rcases List.mem_append.1 hi with hi | hi
      · exact hS c hc i hi
      · exact hg i (List.mem_cons_of_mem _ hi)
  | _ => exact absurd hg id

theorem pathRound_same (hh : ∀ i, S i → SameNode h0 h i ∧ ∀ p, Q p → ∀ k, p k h i = p k h0 i) : ∀ (g : PathGen), g.In S Q →
    pathRound h g = pathRound h0 g ∧ (pathRound h0 g).In S Q
  | .step t g, hg => by
    obtain ⟨h1, h2⟩ := axisRound_same (Q := Q) hS (fun i hi => (hh i hi).1) t hg
    simp only [pathRound, h1]
    refine ⟨trivial, ?_⟩
    cases h3 : axisRound t h0 g <;> rw [h3] at h2 <;> exact h2
  | .left l r, hg => by
    obtain ⟨h1, h2⟩ := pathRound_same hh l hg.1
    simp only [pathRound, h1]
    refine ⟨trivial, ?_⟩
    cases h3 : pathRound h0 l with
    | pass l' => rw [h3] at h2; exact ⟨h2, hg.2⟩
    | give y l' => rw [h3] at h2; exact ⟨h2.2, hg.2, start_in h2.1 r hg.2⟩
    | _ => trivial
  | .right l r g, hg => by
    obtain ⟨h1, h2⟩ := pathRound_same hh g hg.2.2
    simp only [pathRound, h1]
    refine ⟨trivial, ?_⟩
    cases h3 : pathRound h0 g with
    | pass l' => rw [h3] at h2; exact ⟨hg.1, hg.2.1, h2⟩
    | give y l' => rw [h3] at h2; exact ⟨h2.1, hg.1, hg.2.1, h2.2⟩
    | finished => exact ⟨hg.1, hg.2.1⟩
    | raised => trivial
  | .filter g p k, hg => by
    obtain ⟨h1, h2⟩ := pathRound_same hh g hg.1
    simp only [pathRound, h1]
    cases h3 : pathRound h0 g with
    | pass l' => rw [h3] at h2; exact ⟨rfl, h2, hg.2⟩
    | give y l' =>
      rw [h3] at h2
      simp only [(hh y h2.1).2 p hg.2 (k + 1)]
      refine ⟨trivial, ?_⟩
      by_cases hp : p (k + 1) h0 y = true
      · rw [if_pos hp]; exact ⟨h2.1, h2.2, hg.2⟩
      · rw [if_neg hp]; exact ⟨h2.2, hg.2⟩
    | finished => exact ⟨rfl, trivial⟩
    | raised => exact ⟨rfl, trivial⟩

theorem pathNext_same (hh : ∀ i, S i → SameNode h0 h i ∧ ∀ p, Q p → ∀ k, p k h i = p k h0 i) {g : PathGen} {r : PathOut}
    (hn : PathNext h g r) : g.In S Q → PathNext h0 g r ∧ r.In S Q := by
  induction hn with
  | give hr => intro hg; obtain ⟨h1, h2⟩ := pathRound_same hS hh _ hg; rw [h1] at hr; rw [hr] at h2; exact ⟨.give hr, h2⟩
  | finished hr => intro hg; obtain ⟨h1, h2⟩ := pathRound_same hS hh _ hg; rw [h1] at hr; exact ⟨.finished hr, trivial⟩
  | raised hr => intro hg; obtain ⟨h1, h2⟩ := pathRound_same hS hh _ hg; rw [h1] at hr; exact ⟨.raised hr, trivial⟩
  | pass hr _ ih =>
    intro hg
    obtain ⟨h1, h2⟩ := pathRound_same hS hh _ hg
    rw [h1] at hr
    rw [hr] at h2
    obtain ⟨h3, h4⟩ := ih h2
    exact ⟨.pass hr h3, h4⟩

theorem pathNext_back (hh : ∀ i, S i → SameNode h0 h i ∧ ∀ p, Q p → ∀ k, p k h i = p k h0 i) {g : PathGen} {r : PathOut}
    (hn : PathNext h0 g r) : g.In S Q → PathNext h g r := by
  induction hn with
  | give hr => intro hg; exact .give (by rw [(pathRound_same hS hh _ hg).1]; exact hr)
  | finished hr => intro hg; exact .finished (by rw [(pathRound_same hS hh _ hg).1]; exact hr)
  | raised hr => intro hg; exact .raised (by rw [(pathRound_same hS hh _ hg).1]; exact hr)
  | pass hr _ ih =>
    intro hg
    obtain ⟨h1, h2⟩ := pathRound_same hS hh _ hg
    rw [hr] at h2
    exact .pass (by rw [h1]; exact hr) (ih h2)
end

/-! ### all the results of a suspended path, in memory that stays as it is -/

/-- These results, and then the end. -/
inductive PathAll (h : Heap) : PathGen → List Id → Prop
  | done {g} : PathNext h g .finished → PathAll h g []
  | next {g y g' l} : PathNext h g (.give y g') → PathAll h g' l → PathAll h g (y :: l)

theorem pathAll_pass {h : Heap} {g g' : PathGen} {l : List Id} (hp : pathRound h g = .pass g') (ha : PathAll h g' l) : PathAll h g l := by
  cases ha with
  | done hn => exact .done (.pass hp hn)
  | next hn ha => exact .next (.pass hp hn) ha

theorem all_out {t : Test} {h : Heap} {g g' : AxisGen} {c : Id} {l : List Id} (hr : axisRound t h g = t.out h c g')
    (ha : PathAll h (.step t g') (l.filter (t.live h))) : PathAll h (.step t g) ((c :: l).filter (t.live h)) := by
  unfold Test.out at hr
  by_cases hl : t.live h c = true
  · rw [if_pos hl] at hr
    rw [List.filter_cons_of_pos hl]
    exact .next (.give (by simp only [pathRound, hr])) ha
  · rw [if_neg hl] at hr
    rw [List.filter_cons_of_neg hl]
    exact pathAll_pass (by simp only [pathRound, hr]) ha

theorem all_todo (t : Test) (h : Heap) : ∀ (n : Nat) (todo l : List Id), l.length ≤ n → AllBelow h todo l →
    PathAll h (.step t (.todo todo)) (l.filter (t.live h))
  | n, [], l, _, hb => by cases hb; exact .done (.finished rfl)
  | 0, c :: cs, l, hn, hb => by cases hb; simp at hn
  | n + 1, c :: cs, l, hn, hb => by
    cases hb with
    | @cons _ _ l l' h1 h2 =>
      refine all_out rfl (all_todo t h n (h.children c ++ cs) (l ++ l') ?_ (allBelow_append h1 h2))
      simpa using hn

theorem all_child (t : Test) (h : Heap) (e : Id) : ∀ (l : List Id) (k : Nat), (h.children e).drop k = l →
    PathAll h (.step t (.child e k)) (l.filter (t.takes h)) := by
  intro l
  induction l with
  | nil =>
    intro k hk
    refine .done (.finished ?_)
    have : (h.children e)[k]? = none := List.getElem?_eq_none (List.drop_eq_nil_iff.1 hk)
    simp only [pathRound, axisRound, this]
  | cons c l ih =>
    intro k hk
    have h1 : (h.children e)[k]? = some c := by
      have : ((h.children e).drop k)[0]? = some c := by rw [hk]; rfl
      simpa using this
    have h2 : (h.children e).drop (k + 1) = l := by
      rw [← List.tail_drop, hk]
      rfl
    have ih := ih (k + 1) h2
    have hr : axisRound t h (.child e k) = if t.isName && !h.isElemB c then .pass (.child e (k + 1)) else t.out h c (.child e (k + 1)) := by
      simp only [axisRound, h1]
    by_cases hx : (t.isName && !h.isElemB c) = true
    · have hf : t.takes h c = false := by
        simp only [Bool.and_eq_true, Bool.not_eq_true'] at hx
        simp [Test.takes, hx.1, hx.2]
      rw [List.filter_cons_of_neg (by simp [hf])]
      exact pathAll_pass (by simp only [pathRound, hr, if_pos hx]) ih
    · have hf : t.takes h c = t.live h c := by
        simp only [Bool.and_eq_true, Bool.not_eq_true'] at hx
        unfold Test.takes
        cases h3 : t.isName <;> cases h4 : h.isElemB c <;> simp_all
      rw [if_neg hx] at hr
      unfold Test.out at hr
      by_cases hl : t.live h c = true
      · rw [if_pos hl] at hr
        rw [List.filter_cons_of_pos (by rw [hf, hl])]
        exact .next (.give (by simp only [pathRound, hr])) ih
      · rw [if_neg hl] at hr
        rw [List.filter_cons_of_neg (by rw [hf]; exact hl)]
        exact pathAll_pass (by simp only [pathRound, hr]) ih

theorem all_filter {h : Heap} {p : Nat → Heap → Id → Bool} {g : PathGen} {l : List Id} (ha : PathAll h g l) : ∀ k,
    PathAll h (.filter g p k) (holding h p k l) := by
  induction ha with
  | done hn => intro k; exact .done (next_filter_end hn rfl)
  | @next g y g' l hn _ ih =>
    intro k
    have ih := ih (k + 1)
    unfold holding
    by_cases hp : p (k + 1) h y = true
    · rw [if_pos hp]
      exact .next (next_filter_yes hn rfl hp) ih
    · rw [if_neg hp]
      generalize holding h p (k + 1) l = L at ih
      have hp : p (k + 1) h y = false := by simpa using hp
      cases ih with
      | done hn' => exact .done (next_filter_no hn rfl hp hn')
      | next hn' ha' => exact .next (next_filter_no hn rfl hp hn') ha'

theorem all_right {h : Heap} {l g : PathGen} {r : LivePath} {zs ws : List Id} (ha : PathAll h g zs) (hb : PathAll h (.left l r) ws) :
    PathAll h (.right l r g) (zs ++ ws) := by
  induction ha with
  | done hn =>
    cases hb with
    | done hn' => exact .done (next_right_end hn rfl hn')
    | next hn' hb => exact .next (next_right_end hn rfl hn') hb
  | next hn _ ih => exact .next (next_right hn rfl) ih

theorem all_left {h : Heap} {r : LivePath} (hr : ∀ y zs, Finds h r y zs → PathAll h (r.start y) zs) {l : PathGen} {ys : List Id}
    (ha : PathAll h l ys) : ∀ {zs}, FindsEach h r ys zs → PathAll h (.left l r) zs := by
  induction ha with
  | done hn => intro zs hz; cases hz; exact .done (next_left_end hn rfl)
  | @next g y g' ys hn _ ih =>
    intro zs hz
    cases hz with
    | @cons _ _ _ zs ws h1 h2 =>
      have hb := all_right (l := g') (hr _ _ h1) (ih h2)
      generalize zs ++ ws = L at hb
      cases hb with
      | done hn' => exact .done (next_left hn rfl hn')
      | next hn' hb => exact .next (next_left hn rfl hn') hb

/-- A path gives what it finds. -/
theorem all_start (h : Heap) : ∀ (P : LivePath) (e : Id) (zs : List Id), Finds h P e zs → PathAll h (P.start e) zs
  | .step a t, e, zs, hf => by
    cases hf with
    | child => exact all_child t h e _ 0 rfl
    | descendant hb => exact pathAll_pass (g' := .step t (.todo (h.children e))) rfl (all_todo t h _ _ _ (Nat.le_refl _) hb)
    | descendantOrSelf hb =>
      exact all_out (g := .self e) rfl (pathAll_pass (g := .step t (.start e)) (g' := .step t (.todo (h.children e))) rfl
        (all_todo t h _ _ _ (Nat.le_refl _) hb))
  | .slash l r, e, zs, hf => by
    cases hf with
    | slash h1 h2 => exact all_left (all_start h r) (all_start h l e _ h1) h2
  | .filter l p, e, zs, hf => by
    cases hf with
    | filter h1 => exact all_filter (all_start h l e _ h1) 0

/-- In a tree every path finds something definite, all of it below. -/
theorem finds_exists {h : Heap} {S : Id → Prop} (hS : ∀ i, S i → ∀ c ∈ h.children i, S c)
    (hb : ∀ i, S i → ∃ l, AllBelow h (h.children i) l ∧ ∀ j ∈ l, S j) : ∀ (P : LivePath) (e : Id), S e → ∃ zs, Finds h P e zs ∧ ∀ z ∈ zs, S z
  | .step a t, e, he => by
    obtain ⟨l, h1, h2⟩ := hb e he
    cases a with
    | child => exact ⟨_, .child, fun z hz => hS e he z (List.mem_filter.1 hz).1⟩
    | descendant => exact ⟨_, .descendant h1, fun z hz => h2 z (List.mem_filter.1 hz).1⟩
    | descendantOrSelf =>
      refine ⟨_, .descendantOrSelf h1, fun z hz => ?_⟩
      rcases List.mem_cons.1 (List.mem_filter.1 hz).1 with rfl | hz
      · exact he
      · exact h2 z hz
  | .slash l r, e, he => by
    obtain ⟨ys, h1, h2⟩ := finds_exists hS hb l e he
    have : ∀ ys : List Id, (∀ y ∈ ys, S y) → ∃ zs, FindsEach h r ys zs ∧ ∀ z ∈ zs, S z := by
      intro ys
      induction ys with
      | nil => intro _; exact ⟨[], .nil, by simp⟩
      | cons y ys ih =>
        intro hy
        obtain ⟨ws, h3, h4⟩ := ih fun y' hy' => hy y' (List.mem_cons_of_mem _ hy')
        obtain ⟨zs, h5, h6⟩ := finds_exists hS hb r y (hy y List.mem_cons_self)
        refine ⟨zs ++ ws, .cons h5 h3, fun z hz => ?_⟩
        rcases List.mem_append.1 hz with hz | hz
        · exact h6 z hz
        · exact h4 z hz
    obtain ⟨zs, h3, h4⟩ := this ys h2
    exact ⟨zs, .slash h1 h3, h4⟩
  | .filter l p, e, he => by
    obtain ⟨ys, h1, h2⟩ := finds_exists hS hb l e he
    refine ⟨_, .filter h1, ?_⟩
    have : ∀ (ys : List Id) (k : Nat), ∀ z ∈ holding h p k ys, z ∈ ys := by
      intro ys
      induction ys with
      | nil => intro k z hz; cases hz
      | cons y ys ih =>
        intro k z hz
        unfold holding at hz
        split at hz
        · rcases List.mem_cons.1 hz with rfl | hz
          · simp
          · exact List.mem_cons_of_mem _ (ih _ _ hz)
        · exact List.mem_cons_of_mem _ (ih _ _ hz)
    exact fun z hz => h2 z (this _ _ z hz)

end Amara
