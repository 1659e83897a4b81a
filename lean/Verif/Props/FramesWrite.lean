import Verif.Model.FramesWrite
import Verif.Props.Frames
import Verif.Props.Writer
/-
C129 for `writer.write` and `select_pattern`: the limit on nested calls.
-/
namespace Amara

/-! ### write -/

/-- What was done so far: the calls that were completed, and the one in which it ended, are the first ones of `all`. -/
def Sofar (r : List Call × WriteEnd) (all : List Call) : Prop :=
  match r.2 with
  | .fine => r.1 = all
  | .between => r.1 <+: all
  | .inside c => (r.1 ++ [c]) <+: all

theorem sofar_then {xs : List Call} {e : WriteEnd} {all pre post : List Call} (he : e ≠ .fine) (h : Sofar (xs, e) all) :
    Sofar (pre ++ xs, e) (pre ++ (all ++ post)) := by
  cases e with
  | fine => exact absurd rfl he
  | between =>
    obtain ⟨t, ht⟩ := h
    exact ⟨t ++ post, by rw [← ht]; simp⟩
  | inside c =>
    obtain ⟨t, ht⟩ := h
    exact ⟨t ++ post, by rw [← ht]; simp⟩

theorem writeK_sofar (c : WriterNeeds) :
    (∀ (x : Node), x.isText = false → ∀ k, Sofar (x.writeK c k) x.calls) ∧
    (∀ (xs : List Node) (k : Nat), Sofar (Node.writeChildrenK c k xs) (Node.callsList xs)) := by
  apply Node.induct
  case elem =>
    intro n as cs ih _ k
    cases k with
    | zero => exact List.nil_prefix
    | succ k =>
      rw [Node.writeK, Node.calls]
      split
      · exact ⟨Node.callsList cs ++ [.stop n], rfl⟩
      · have h := ih k
        split
        · rename_i xs he
          rw [he] at h
          have h : xs = Node.callsList cs := h
          split
          · exact ⟨[], by simp [h]⟩
          · simp [Sofar, h]
        · rename_i xs e hne he
          rw [he] at h
          exact sofar_then (pre := [.start n as false]) (post := [.stop n]) hne h
  case text => intro s h; cases h
  case nil => intro k; rfl
  case cons =>
    intro x xs ih1 ih2 k
    cases x with
    | elem n as cs =>
      rw [Node.writeChildrenK, Node.callsList]
      have h1 := ih1 rfl k
      have h2 := ih2 k
      split
      · rename_i ys he
        rw [he] at h1
        have h1 : ys = Node.calls (.elem n as cs) := h1
        rw [← h1]
        cases hr : (Node.writeChildrenK c k xs).2 with
        | fine =>
          simp only [Sofar, hr] at h2 ⊢
          rw [h2]
        | _ =>
          have h2' : Sofar ((Node.writeChildrenK c k xs).1, (Node.writeChildrenK c k xs).2) (Node.callsList xs) := h2
          rw [hr] at h2'
          have := sofar_then (pre := ys) (post := []) (by simp) h2'
          simpa using this
      · rename_i ys e hne he
        rw [he] at h1
        have := sofar_then (pre := []) (post := Node.callsList xs) hne h1
        simpa using this
    | text s =>
      rw [Node.writeChildrenK, Node.callsList]
      have h2 := ih2 k
      split
      · exact ⟨Node.callsList xs, by simp [Node.calls]⟩
      · cases hr : (Node.writeChildrenK c k xs).2 with
        | fine =>
          simp only [Sofar, hr] at h2 ⊢
          rw [h2]; rfl
        | _ =>
          have h2' : Sofar ((Node.writeChildrenK c k xs).1, (Node.writeChildrenK c k xs).2) (Node.callsList xs) := h2
          rw [hr] at h2'
          have := sofar_then (pre := [.text s]) (post := []) (by simp) h2'
          simpa [Node.calls] using this

/-- No method of the writer needs more than `m` calls. -/
def WriterNeeds.Within (c : WriterNeeds) (m : Nat) : Prop := c.start ≤ m ∧ c.text ≤ m ∧ c.stop ≤ m

theorem writeK_fine (c : WriterNeeds) (m : Nat) (hc : c.Within m) :
    (∀ (x : Node) (k : Nat), x.isText = false → x.height + m ≤ k → (x.writeK c k).2 = .fine) ∧
    (∀ (xs : List Node) (k : Nat), Node.heights xs + m ≤ k → (Node.writeChildrenK c k xs).2 = .fine) := by
  apply Node.induct
  case elem =>
    intro n as cs ih k _ h
    rw [Node.height] at h
    obtain ⟨k, rfl⟩ : ∃ k', k = k' + 1 := ⟨k - 1, by omega⟩
    have h1 := ih k (by omega)
    have h2 := hc.1
    have h3 := hc.2.2
    rw [Node.writeK, if_neg (by omega)]
    split
    · rw [if_neg (by omega)]
    · rename_i ys e hne he; rw [he] at h1; exact h1
  case text => intro s k h; cases h
  case nil => intro k h; rfl
  case cons =>
    intro x xs ih1 ih2 k h
    rw [Node.heights] at h
    have h2 := ih2 k (by omega)
    cases x with
    | elem n as cs =>
      have h1 := ih1 k rfl (by omega)
      rw [Node.writeChildrenK]
      split
      · exact h2
      · rename_i ys e hne he; rw [he] at h1; exact h1
    | text s =>
      rw [Node.writeChildrenK, if_neg (by have := hc.2.1; omega)]
      exact h2

theorem writeK_fails (c : WriterNeeds) :
    (∀ (x : Node) (k : Nat), x.isText = false → k < x.height → (x.writeK c k).2 ≠ .fine) ∧
    (∀ (xs : List Node) (k : Nat), k < Node.heights xs → (Node.writeChildrenK c k xs).2 ≠ .fine) := by
  apply Node.induct
  case elem =>
    intro n as cs ih k _ h
    rw [Node.height] at h
    cases k with
    | zero => simp [Node.writeK]
    | succ k =>
      have h1 := ih k (by omega)
      rw [Node.writeK]
      split
      · simp
      · split
        · rename_i xs he; rw [he] at h1; exact absurd rfl h1
        · rename_i xs e hne he; rw [he] at h1; exact h1
  case text => intro s k h; cases h
  case nil => intro k h; simp [Node.heights] at h
  case cons =>
    intro x xs ih1 ih2 k h
    rw [Node.heights] at h
    cases x with
    | elem n as cs =>
      rw [Node.writeChildrenK]
      split
      · rename_i ys he
        refine ih2 k ?_
        have : ¬ k < (Node.elem n as cs).height := fun h' => ih1 k rfl h' (by rw [he])
        omega
      · rename_i ys e hne he
        exact hne
    | text s =>
      rw [Node.writeChildrenK]
      rw [Node.height] at h
      split
      · simp
      · exact ih2 k (by omega)

/-- C129: `write` under a limit makes the first of the calls it makes without a limit, and ends in the next one or before it;
all of them if the limit is at least the depth and some more, and not if it is less than the depth. -/
theorem C129_write_partial (c : WriterNeeds) (m : Nat) (hc : c.Within m) (k : Nat) (e : Node) (he : e.isText = false) :
    Sofar (e.writeK c k) e.calls ∧
    (e.height + m ≤ k → e.writeK c k = (e.calls, .fine)) ∧
    (k < e.height → (e.writeK c k).2 ≠ .fine) := by
  have h1 := (writeK_sofar c).1 e he k
  refine ⟨h1, fun h => ?_, (writeK_fails c).1 e k he⟩
  have h2 := (writeK_fine c m hc).1 e k he h
  refine Prod.ext ?_ h2
  simpa only [Sofar, h2] using h1

/-- C129: so on any writer that completes the calls, the output after the completed calls is that of the writer without a
limit after as many calls; if there was no exception, it is what `write` writes. -/
theorem C129_write_output_partial (c : WriterNeeds) (k : Nat) (e : Node) (he : e.isText = false) (w : Writer) :
    ∃ rest, e.calls = (e.writeK c k).1 ++ rest ∧
      w.writeElem e = (w.calls (e.writeK c k).1).bind (fun w' => w'.calls rest) ∧
      ((e.writeK c k).2 = .fine → w.writeElem e = w.calls (e.writeK c k).1) := by
  have h1 := (writeK_sofar c).1 e he k
  have hw : w.writeElem e = w.calls e.calls := by
    cases e with
    | text s => cases he
    | elem n as cs => exact writeElem_calls _ n as cs rfl w
  have hp : (e.writeK c k).1 <+: e.calls := by
    cases hr : (e.writeK c k).2 with
    | fine => simp only [Sofar, hr] at h1; rw [h1]; exact List.prefix_refl _
    | between => simpa only [Sofar, hr] using h1
    | inside d =>
      simp only [Sofar, hr] at h1
      exact (List.prefix_append _ _).trans h1
  obtain ⟨rest, hr⟩ := hp
  refine ⟨rest, hr.symm, by rw [hw, ← hr, calls_append], fun hf => ?_⟩
  rw [hw]
  simp only [Sofar, hf] at h1
  rw [← h1]

/-- `<a>x<b></b></a>` with two calls left and `start_element` and the others needing one: the inner `write` fails inside
`start_element`. -/
example : (Node.elem ['a'] [] [.text ['x'], .elem ['b'] [] []]).writeK ⟨1, 1, 1⟩ 2 =
    ([.start ['a'] [] false, .text ['x']], .inside (.start ['b'] [] false)) ∧
    ((Node.elem ['a'] [] [.text ['x'], .elem ['b'] [] []]).writeK ⟨1, 1, 1⟩ 3).2 = .fine := by decide

/-! ### select_pattern -/

theorem selectStateK_sound (need : List (Stage Node) → Node → Nat) :
    (∀ (x : Node) (p : Path) (st : List (Stage Node)) (k : Nat),
      (x.selectStateK need p st k).1 <+: (x.selectState p st).1 ∧
      ((x.selectStateK need p st k).2 = .fine → x.selectState p st = ((x.selectStateK need p st k).1, false)) ∧
      ((x.selectStateK need p st k).2 = .typeError → x.selectState p st = ((x.selectStateK need p st k).1, true))) ∧
    (∀ (xs : List Node) (p : Path) (st : List (Stage Node)) (k i : Nat),
      (Node.selectStatesK need p st k i xs).1 <+: (Node.selectStates p st i xs).1 ∧
      ((Node.selectStatesK need p st k i xs).2 = .fine →
        Node.selectStates p st i xs = ((Node.selectStatesK need p st k i xs).1, false)) ∧
      ((Node.selectStatesK need p st k i xs).2 = .typeError →
        Node.selectStates p st i xs = ((Node.selectStatesK need p st k i xs).1, true))) := by
  apply Node.induct
  case elem =>
    intro n as cs ih p st k
    cases k with
    | zero => simp [Node.selectStateK]
    | succ k => rw [Node.selectStateK, Node.selectState]; exact ih p st k 0
  case text =>
    intro s p st k
    cases k with
    | zero => simp [Node.selectStateK]
    | succ k => simp [Node.selectStateK, Node.selectState]
  case nil => intro p st k i; simp [Node.selectStatesK, Node.selectStates]
  case cons =>
    intro x xs ih1 ih2 p st k i
    obtain ⟨a1, a2, a3⟩ := ih2 p st k (i + 1)
    rw [Node.selectStatesK]
    split
    · simp
    · rw [Node.selectStates]
      cases hps : patStep Node.look st x with
      | typeError => simp
      | none => exact ⟨a1, a2, a3⟩
      | to st' =>
        cases st' with
        | nil =>
          simp only [thenGen, Bool.false_eq_true, if_false]
          refine ⟨?_, fun h => by rw [a2 h]; rfl, fun h => by rw [a3 h]; rfl⟩
          obtain ⟨t, ht⟩ := a1
          exact ⟨t, by simp [← ht]⟩
        | cons s st' =>
          obtain ⟨b1, b2, b3⟩ := ih1 (p ++ [i]) (s :: st') k
          simp only
          split
          · rename_i ys he
            rw [he] at b2
            have hb := b2 rfl
            rw [hb]
            simp only [thenGen, Bool.false_eq_true, if_false]
            refine ⟨?_, fun h => by rw [a2 h], fun h => by rw [a3 h]⟩
            obtain ⟨t, ht⟩ := a1
            exact ⟨t, by simp [← ht]⟩
          · rename_i ys e hne he
            rw [he] at b1 b2 b3
            have hpre : ys <+: (thenGen (Node.selectState (p ++ [i]) (s :: st') x) (Node.selectStates p st (i + 1) xs)).1 := by
              refine b1.trans ?_
              rw [thenGen]
              split
              · exact List.prefix_refl _
              · exact List.prefix_append _ _
            refine ⟨hpre, fun h => absurd h hne, fun h => ?_⟩
            have h : e = .typeError := h
            subst h
            rw [b3 rfl]
            rfl

/-- No state needs more than `m` calls. -/
def NeedWithin (need : List (Stage Node) → Node → Nat) (m : Nat) : Prop := ∀ st x, need st x ≤ m

theorem selectStateK_deep (need : List (Stage Node) → Node → Nat) (m : Nat) (hm : NeedWithin need m) :
    (∀ (x : Node) (p : Path) (st : List (Stage Node)) (k : Nat), 0 < k → x.height + max 1 m ≤ k →
      (x.selectStateK need p st k).2 ≠ .recursion) ∧
    (∀ (xs : List Node) (p : Path) (st : List (Stage Node)) (k i : Nat), Node.heights xs + max 1 m ≤ k →
      (Node.selectStatesK need p st k i xs).2 ≠ .recursion) := by
  apply Node.induct
  case elem =>
    intro n as cs ih p st k h0 h
    rw [Node.height] at h
    obtain ⟨k, rfl⟩ : ∃ k', k = k' + 1 := ⟨k - 1, by omega⟩
    rw [Node.selectStateK]
    exact ih p st k 0 (by omega)
  case text =>
    intro s p st k h0 h
    obtain ⟨k, rfl⟩ : ∃ k', k = k' + 1 := ⟨k - 1, by omega⟩
    simp [Node.selectStateK]
  case nil => intro p st k i h; simp [Node.selectStatesK]
  case cons =>
    intro x xs ih1 ih2 p st k i h
    rw [Node.heights] at h
    have h2 := ih2 p st k (i + 1) (by omega)
    rw [Node.selectStatesK, if_neg (by have := hm st x; omega)]
    cases hps : patStep Node.look st x with
    | typeError => simp
    | none => exact h2
    | to st' =>
      cases st' with
      | nil => exact h2
      | cons s st' =>
        have h1 := ih1 (p ++ [i]) (s :: st') k (by omega) (by omega)
        simp only
        split
        · exact h2
        · rename_i ys e hne he; rw [he] at h1; exact h1

/-- A pattern without `**`. -/
def NoDoubleStar (st : List (Stage Node)) : Prop := ∀ s ∈ st, s ≠ .dstar

theorem patStep_shorter {st st' : List (Stage Node)} {x : Node} (hn : NoDoubleStar st) (h : patStep Node.look st x = .to st') :
    ∃ s, st = s :: st' := by
  cases st with
  | nil => cases h
  | cons s r =>
    cases s with
    | dstar => exact absurd rfl (hn .dstar (by simp))
    | name n => rw [patStep] at h; split at h <;> cases h; exact ⟨_, rfl⟩
    | star => rw [patStep] at h; split at h <;> cases h; exact ⟨_, rfl⟩
    | oneOf fs => rw [patStep] at h; split at h <;> cases h; exact ⟨_, rfl⟩

theorem selectStateK_flat (need : List (Stage Node) → Node → Nat) (m : Nat) (hm : NeedWithin need m) :
    (∀ (x : Node) (p : Path) (st : List (Stage Node)) (k : Nat), NoDoubleStar st → st ≠ [] → st.length + max 1 m ≤ k →
      (x.selectStateK need p st k).2 ≠ .recursion) ∧
    (∀ (xs : List Node) (p : Path) (st : List (Stage Node)) (k i : Nat), NoDoubleStar st → st.length + max 1 m ≤ k + 1 → max 1 m ≤ k →
      (Node.selectStatesK need p st k i xs).2 ≠ .recursion) := by
  apply Node.induct
  case elem =>
    intro n as cs ih p st k hn h0 h
    obtain ⟨k, rfl⟩ : ∃ k', k = k' + 1 := ⟨k - 1, by omega⟩
    rw [Node.selectStateK]
    cases st with
    | nil => exact absurd rfl h0
    | cons s st => exact ih p (s :: st) k 0 hn (by simpa using h) (by simp at h; omega)
  case text =>
    intro s p st k hn h0 h
    obtain ⟨k, rfl⟩ : ∃ k', k = k' + 1 := ⟨k - 1, by omega⟩
    simp [Node.selectStateK]
  case nil => intro p st k i hn h h'; simp [Node.selectStatesK]
  case cons =>
    intro x xs ih1 ih2 p st k i hn h h'
    have h2 := ih2 p st k (i + 1) hn h h'
    rw [Node.selectStatesK, if_neg (by have := hm st x; omega)]
    cases hps : patStep Node.look st x with
    | typeError => simp
    | none => exact h2
    | to st' =>
      obtain ⟨s0, hst⟩ := patStep_shorter hn hps
      cases st' with
      | nil => exact h2
      | cons s st' =>
        have h1 := ih1 (p ++ [i]) (s :: st') k (fun t ht => hn t (by rw [hst]; exact List.mem_cons_of_mem _ ht)) (by simp)
          (by rw [hst] at h; simp at h ⊢; omega)
        simp only
        split
        · exact h2
        · rename_i ys e hne he; rw [he] at h1; exact h1

/-- C129: `select_pattern` under a limit yields the first of the nodes it yields without a limit, and all of them (and TypeError,
if that is how it ends) unless it ends with RecursionError; which it does not if the limit is at least the depth of the tree
and some more. -/
theorem C129_select_pattern_partial (need : List (Stage Node) → Node → Nat) (m : Nat) (hm : NeedWithin need m)
    (st : List (Stage Node)) (k : Nat) (e : Node) :
    (e.selectStateK need [] st k).1 <+: (e.selectState [] st).1 ∧
    ((e.selectStateK need [] st k).2 ≠ .recursion → e.selectState [] st =
      ((e.selectStateK need [] st k).1, decide ((e.selectStateK need [] st k).2 = .typeError))) ∧
    (e.height + max 1 m ≤ k → (e.selectStateK need [] st k).2 ≠ .recursion) := by
  obtain ⟨h1, h2, h3⟩ := (selectStateK_sound need).1 e [] st k
  refine ⟨h1, fun h => ?_, fun h => (selectStateK_deep need m hm).1 e [] st k (by omega) h⟩
  cases hr : (e.selectStateK need [] st k).2 with
  | fine => rw [h2 hr]; rfl
  | typeError => rw [h3 hr]; rfl
  | recursion => exact absurd hr h

/-- C129: with a pattern without `**` the depth of the document does not matter, only the length of the pattern. -/
theorem C129_select_pattern_any_depth (need : List (Stage Node) → Node → Nat) (m : Nat) (hm : NeedWithin need m)
    {st : List (Stage Node)} (hn : NoDoubleStar st) (h0 : st ≠ []) (k : Nat) (hk : st.length + max 1 m ≤ k) (e : Node) :
    (e.selectStateK need [] st k).2 ≠ .recursion := (selectStateK_flat need m hm).1 e [] st k hn h0 hk

theorem missing_step {n : Str} {x : Node} (hx : x.look ≠ some n) :
    patStep Node.look [.dstar, .name n] x = .to [.dstar, .name n] := by
  rw [patStep, patStep, if_neg hx]
  split <;> rfl

theorem selectStateK_missing_both (need : List (Stage Node) → Node → Nat) (n : Str) :
    (∀ (x : Node) (p : Path) (k : Nat), (∀ q, q ≠ [] → ∀ y, x.at? q = some y → y.look ≠ some n) →
      (x.selectStateK need p [.dstar, .name n] k).2 ≠ .typeError ∧ (x.selectStateK need p [.dstar, .name n] k).1 = []) ∧
    (∀ (xs : List Node) (p : Path) (k i : Nat), (∀ (j : Nat) z q y, xs[j]? = some z → z.at? q = some y → y.look ≠ some n) →
      (Node.selectStatesK need p [.dstar, .name n] k i xs).2 ≠ .typeError ∧
      (Node.selectStatesK need p [.dstar, .name n] k i xs).1 = []) := by
  apply Node.induct
  case elem =>
    intro m as cs ih p k hn
    cases k with
    | zero => simp [Node.selectStateK]
    | succ k =>
      rw [Node.selectStateK]
      refine ih p k 0 (fun j z q y hz hy => hn (j :: q) (by simp) y ?_)
      simp [Node.at?, Node.xmlChildren, hz, hy]
  case text => intro s p k hn; cases k <;> simp [Node.selectStateK]
  case nil => intro p k i hn; simp [Node.selectStatesK]
  case cons =>
    intro x xs ih1 ih2 p k i hn
    rw [Node.selectStatesK]
    split
    · simp
    · rw [missing_step (hn 0 x [] x rfl rfl)]
      simp only
      have h1 := ih1 (p ++ [i]) k (fun q hq y hy => hn 0 x q y rfl hy)
      have h2 := ih2 p k (i + 1) (fun j z q y hz hy => hn (j + 1) z q y (by simpa using hz) hy)
      split
      · rename_i ys he
        rw [he] at h1
        have h3 : ys = [] := h1.2
        exact ⟨h2.1, by simp only [h3, h2.2]; rfl⟩
      · rename_i ys e hne he
        rw [he] at h1
        exact h1

theorem selectStateK_missing (need : List (Stage Node) → Node → Nat) (n : Str) :
    (∀ (x : Node) (p : Path) (k : Nat), (∀ q, q ≠ [] → ∀ y, x.at? q = some y → y.look ≠ some n) → k < x.height →
      (x.selectStateK need p [.dstar, .name n] k).2 = .recursion) ∧
    (∀ (xs : List Node) (p : Path) (k i : Nat), (∀ (j : Nat) z q y, xs[j]? = some z → z.at? q = some y → y.look ≠ some n) →
      k < Node.heights xs → (Node.selectStatesK need p [.dstar, .name n] k i xs).2 = .recursion) := by
  apply Node.induct
  case elem =>
    intro m as cs ih p k hn h
    cases k with
    | zero => rfl
    | succ k =>
      rw [Node.selectStateK]
      rw [Node.height] at h
      refine ih p k 0 (fun j z q y hz hy => hn (j :: q) (by simp) y ?_) (by omega)
      simp [Node.at?, Node.xmlChildren, hz, hy]
  case text => intro s p k hn h; simp [Node.height] at h
  case nil => intro p k i hn h; simp [Node.heights] at h
  case cons =>
    intro x xs ih1 ih2 p k i hn h
    rw [Node.selectStatesK]
    split
    · rfl
    · have hx : x.look ≠ some n := hn 0 x [] x rfl rfl
      rw [missing_step hx]
      simp only
      rw [Node.heights] at h
      split
      · rename_i ys he
        refine ih2 p k (i + 1) (fun j z q y hz hy => hn (j + 1) z q y (by simpa using hz) hy) ?_
        have : ¬ k < x.height := fun h' => by
          have := ih1 (p ++ [i]) k (fun q hq y hy => hn 0 x q y rfl hy) h'
          rw [he] at this
          cases this
        omega
      · rename_i ys e hne he
        cases e with
        | fine => exact absurd rfl hne
        | recursion => rfl
        | typeError =>
          exact absurd (by rw [he]) ((selectStateK_missing_both need n).1 x (p ++ [i]) k (fun q hq y hy => hn 0 x q y rfl hy)).1

/-- C129: looking for elements at any depth that are not there fails in every document deeper than the limit. -/
theorem C129_select_pattern_fails (need : List (Stage Node) → Node → Nat) (n : Str) (e : Node)
    (hn : ∀ q, q ≠ [] → ∀ y, e.at? q = some y → y.look ≠ some n) (k : Nat) (hk : k < e.height) :
    (e.selectStateK need [] [.dstar, .name n] k).2 = .recursion ∧ e.selectState [] [.dstar, .name n] = ([], false) := by
  refine ⟨(selectStateK_missing need n).1 e [] k hn hk, ?_⟩
  have hm : NeedWithin (fun _ _ => 0) 0 := fun _ _ => Nat.le_refl 0
  have h1 := (C129_select_pattern_partial _ 0 hm [.dstar, .name n] (e.height + max 1 0) e)
  have h2 := h1.2.2 (Nat.le_refl _)
  have h3 := h1.2.1 h2
  obtain ⟨h4, h5⟩ := (selectStateK_missing_both (fun _ _ => 0) n).1 e [] (e.height + max 1 0) hn
  rw [h3, h5, decide_eq_false h4]

/-- `<a>x<b></b></a>`: `('**', 'c')` needs three nested calls (a text takes one, too), `('*',)` two. -/
example : ((Node.elem ['a'] [] [.text ['x'], .elem ['b'] [] []]).selectStateK (fun _ _ => 1) [] [.dstar, .name ['c']] 1).2 = .recursion ∧
    (Node.elem ['a'] [] [.text ['x'], .elem ['b'] [] []]).selectStateK (fun _ _ => 1) [] [.dstar, .name ['c']] 3 = ([], .fine) ∧
    (Node.elem ['a'] [] [.text ['x'], .elem ['b'] [] []]).selectStateK (fun _ _ => 1) [] [.star] 2 =
      ([([1], .elem ['b'] [] [])], .fine) := by decide

end Amara
