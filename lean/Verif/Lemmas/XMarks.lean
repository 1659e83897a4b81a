import Verif.Spec.XMarks
import Verif.Lemmas.XHeap
import Verif.Lemmas.XPath
import Verif.Props.XPathOps
/-
Lemmas for C158.
-/
namespace Amara

variable {F : Type}

/-- Whatever the order numbers are (within `I b`), the generator yields the items of `r` and ends as `r` does.  What it does to
the order numbers keeps them within `I true` if they were, and at any rate within `I b`. -/
def QGen.AgreesAt (I : Bool → Marks → Prop) : QGen F → Bool → Res F → Prop
  | .stop t, _, r => r = ⟨[], t⟩
  | .yield x g, b, r => ∃ r', g.AgreesAt I b r' ∧ r = ⟨x :: r'.items, r'.tail⟩
  | .act u k, b, r => ∀ m, I b m → (I true m → I true (u m)) ∧ ∃ b', (b = true → b' = true) ∧ I b' (u m) ∧ (k (u m)).AgreesAt I b' r

/-- At any rate. -/
def QGen.Agrees (I : Bool → Marks → Prop) (g : QGen F) (r : Res F) : Prop := ∀ b, g.AgreesAt I b r

variable {I : Bool → Marks → Prop}

theorem agreesAt_ofList (b : Bool) (t : Tail) : ∀ xs : List (Item F), (QGen.ofList t xs).AgreesAt I b ⟨xs, t⟩
  | [] => rfl
  | _ :: r => ⟨⟨r, t⟩, agreesAt_ofList b t r, rfl⟩

theorem agrees_ofList (t : Tail) (xs : List (Item F)) : (QGen.ofList t xs).Agrees I ⟨xs, t⟩ := fun b => agreesAt_ofList b t xs

theorem agrees_ofRes (r : Res F) : (QGen.ofRes r).Agrees I r := agrees_ofList _ _

theorem agrees_one (x : Item F) : (QGen.one x).Agrees I (.one x) := fun _ => ⟨⟨[], .done⟩, rfl, rfl⟩

theorem agrees_stop {t : Tail} : (QGen.stop t : QGen F).Agrees I ⟨[], t⟩ := fun _ => rfl

theorem agrees_fail {e : XErr} : (QGen.fail e : QGen F).Agrees I (.fail e) := fun _ => rfl

theorem agreesAt_mono (hI : ∀ m, I true m → I false m) {a : QGen F} {w w' : Bool} {r : Res F} (hw : w = true → w' = true)
    (ha : a.AgreesAt I w r) : a.AgreesAt I w' r := by
  induction a generalizing w w' r with
  | stop t => exact ha
  | yield x g ih =>
    obtain ⟨r', h1, rfl⟩ := ha
    exact ⟨r', ih hw h1, rfl⟩
  | act u k ih =>
    intro m hm
    cases w' with
    | false =>
      cases w with
      | false =>
        obtain ⟨h1, v, h2, h3, h4⟩ := ha m hm
        exact ⟨h1, v, h2, h3, h4⟩
      | true => exact absurd (hw rfl) (by simp)
    | true =>
      have hm' : I w m := by
        cases w with
        | false => exact hI m hm
        | true => exact hm
      obtain ⟨h1, v, h2, h3, h4⟩ := ha m hm'
      exact ⟨h1, true, fun _ => rfl, h1 hm, ih _ (fun _ => rfl) h4⟩

theorem agreesAt_append {a b : QGen F} {w : Bool} {r s : Res F} (ha : a.AgreesAt I w r) (hb : ∀ w', (w = true → w' = true) → b.AgreesAt I w' s) :
    (a.append b).AgreesAt I w (r.append s) := by
  induction a generalizing w r with
  | stop t =>
    have ha : r = ⟨[], t⟩ := ha
    subst ha
    cases t with
    | done => exact hb w id
    | err e => rfl
    | out => rfl
  | yield x g ih =>
    obtain ⟨r', h1, rfl⟩ := ha
    refine ⟨r'.append s, ih h1 hb, ?_⟩
    unfold Res.append
    cases r' with
    | mk is t => cases t <;> rfl
  | act u k ih =>
    intro m hm
    obtain ⟨h1, w', h2, h3, h4⟩ := ha m hm
    exact ⟨h1, w', h2, h3, ih _ h4 fun w'' h => hb w'' fun h' => h (h2 h')⟩

theorem agrees_append {a b : QGen F} {r s : Res F} (ha : a.Agrees I r) (hb : b.Agrees I s) : (a.append b).Agrees I (r.append s) :=
  fun w => agreesAt_append (ha w) fun w' _ => hb w'

theorem agrees_bind (hI : ∀ m, I true m → I false m) {a : QGen F} {r : Res F} {f : Item F → QGen F} {f' : Item F → Res F} (ha : a.Agrees I r)
    (hf : ∀ x, (f x).Agrees I (f' x)) : (a.bind f).Agrees I (r.bind f') := by
  have key : ∀ (w : Bool) (r : Res F), a.AgreesAt I w r → (a.bind f).AgreesAt I w (r.bind f') := by
    clear ha
    induction a with
    | stop t =>
      intro w r ha
      have ha : r = ⟨[], t⟩ := ha
      subst ha
      rfl
    | yield x g ih =>
      intro w r ha
      obtain ⟨r', h1, rfl⟩ := ha
      exact agreesAt_append (hf x w) fun w' h => ih w' r' (agreesAt_mono hI h h1)
    | act u k ih =>
      intro w r ha m hm
      obtain ⟨h1, w', h2, h3, h4⟩ := ha m hm
      exact ⟨h1, w', h2, h3, ih _ w' r h4⟩
  exact fun w => key w r (ha w)

theorem agreesAt_first {a : QGen F} {w : Bool} {r s : Res F} {k : Res.First F → QGen F} (ha : a.AgreesAt I w r)
    (hk : ∀ w', (w = true → w' = true) → (k r.first).AgreesAt I w' s) : (a.first k).AgreesAt I w s := by
  induction a generalizing w r with
  | stop t =>
    have ha : r = ⟨[], t⟩ := ha
    subst ha
    cases t <;> exact hk w id
  | yield x g ih =>
    obtain ⟨r', h1, rfl⟩ := ha
    exact hk w id
  | act u g ih =>
    intro m hm
    obtain ⟨h1, w', h2, h3, h4⟩ := ha m hm
    exact ⟨h1, w', h2, h3, ih _ h4 fun w'' h => hk w'' fun h' => h (h2 h')⟩

theorem agrees_first {a : QGen F} {r s : Res F} {k : Res.First F → QGen F} (ha : a.Agrees I r)
    (hk : (k r.first).Agrees I s) : (a.first k).Agrees I s := fun w => agreesAt_first (ha w) fun w' _ => hk w'

theorem agrees_need {a : QGen F} {r : Res F} {f : Item F → QGen F} {f' : Item F → Res F} (ha : a.Agrees I r)
    (hf : ∀ x, (f x).Agrees I (f' x)) : (a.need f).Agrees I (r.need f') := by
  refine agrees_first ha ?_
  unfold Res.need
  cases r.first with
  | got x => exact hf x
  | empty => exact agrees_fail
  | stop t => exact agrees_stop

theorem agrees_orDefault {a : QGen F} {r : Res F} {f : Item F → QGen F} {f' : Item F → Res F} (d : Item F) (ha : a.Agrees I r)
    (hf : ∀ x, (f x).Agrees I (f' x)) : (a.orDefault d f).Agrees I (r.orDefault d f') := by
  refine agrees_first ha ?_
  unfold Res.orDefault
  cases r.first with
  | got x => exact hf x
  | empty => exact hf d
  | stop t => exact agrees_stop

theorem agreesAt_toList {a : QGen F} {w : Bool} {r s : Res F} {k : List (Item F) → QGen F} (ha : a.AgreesAt I w r)
    (hk : r.tail = .done → ∀ w', (w = true → w' = true) → (k r.items).AgreesAt I w' s) (hs : r.tail ≠ .done → s = ⟨[], r.tail⟩) :
    (a.toList k).AgreesAt I w s := by
  induction a generalizing w r k with
  | stop t =>
    have ha : r = ⟨[], t⟩ := ha
    subst ha
    cases t with
    | done => exact hk rfl w id
    | err e => exact hs (by simp)
    | out => exact hs (by simp)
  | yield x g ih =>
    obtain ⟨r', h1, rfl⟩ := ha
    exact ih h1 hk hs
  | act u g ih =>
    intro m hm
    obtain ⟨h1, w', h2, h3, h4⟩ := ha m hm
    exact ⟨h1, w', h2, h3, ih _ h4 (fun h w'' h' => hk h w'' fun h'' => h' (h2 h'')) hs⟩

theorem agrees_toList {a : QGen F} {r s : Res F} {k : List (Item F) → QGen F} (ha : a.Agrees I r)
    (hk : r.tail = .done → (k r.items).Agrees I s) (hs : r.tail ≠ .done → s = ⟨[], r.tail⟩) : (a.toList k).Agrees I s :=
  fun w => agreesAt_toList (ha w) (fun h w' _ => hk h w') hs

theorem agreesAt_drain {a : QGen F} {w : Bool} {r : Res F} (ha : a.AgreesAt I w r) :
    a.drain.AgreesAt I w (if r.tail = .done then .one (.bool false) else ⟨[], r.tail⟩) := by
  induction a generalizing w r with
  | stop t =>
    have ha : r = ⟨[], t⟩ := ha
    subst ha
    cases t with
    | done => exact agrees_one _ _
    | err e => rfl
    | out => rfl
  | yield x g ih =>
    obtain ⟨r', h1, rfl⟩ := ha
    have h2 := ih h1
    exact h2
  | act u k ih =>
    intro m hm
    obtain ⟨h1, w', h2, h3, h4⟩ := ha m hm
    exact ⟨h1, w', h2, h3, ih _ h4⟩

section
variable (fo : FloatOps F) (doc : Node)

theorem agreesAt_eqWith {b : QGen F} {w : Bool} {r s : Res F} (i : Item F) {rest : QGen F} (hb : b.AgreesAt I w r)
    (hr : ∀ w', (w = true → w' = true) → rest.AgreesAt I w' s) :
    (eqWithG fo doc i rest b).AgreesAt I w (match eqLoop fo doc i r.tail r.items with
      | .inl _ => .one (.bool true)
      | .inr .done => s
      | .inr t => ⟨[], t⟩) := by
  induction b generalizing w r with
  | stop t =>
    have hb : r = ⟨[], t⟩ := hb
    subst hb
    cases t with
    | done => exact hr w id
    | err e => rfl
    | out => rfl
  | yield j g ih =>
    obtain ⟨r', h1, rfl⟩ := hb
    have := ih h1 hr
    unfold eqWithG eqLoop
    by_cases h2 : j.isNode = true
    · rw [if_pos h2]
      simp only [h2, if_true]
      rfl
    · rw [if_neg h2]
      simp only [h2]
      by_cases h3 : i.pyEq fo doc j = true
      · rw [if_pos h3]; simp only [h3, if_true]; exact agrees_one _ _
      · rw [if_neg h3]; simp only [h3]; exact this
  | act u k ih =>
    intro m hm
    obtain ⟨h1, w', h2, h3, h4⟩ := hb m hm
    exact ⟨h1, w', h2, h3, ih _ h4 fun w'' h => hr w'' fun h' => h (h2 h')⟩

theorem agrees_eq (hI : ∀ m, I true m → I false m) {a b : QGen F} {l r : Res F} (ha : a.Agrees I l) (hb : b.Agrees I r) :
    (eqG fo doc b a).Agrees I (eqRes fo doc l r) := by
  have key : ∀ (w : Bool) (l : Res F), a.AgreesAt I w l → (eqG fo doc b a).AgreesAt I w (eqRes fo doc l r) := by
    clear ha
    induction a with
    | stop t =>
      intro w l ha
      have ha : l = ⟨[], t⟩ := ha
      subst ha
      cases t with
      | done => exact agrees_one _ _
      | err e => rfl
      | out => rfl
    | yield i g ih =>
      intro w l ha
      obtain ⟨r', h1, rfl⟩ := ha
      exact agreesAt_eqWith fo doc _ (hb w) fun w' h => by
        have h2 := agreesAt_drain (agreesAt_mono hI h h1)
        exact h2
    | act u k ih =>
      intro w l ha m hm
      obtain ⟨h1, w', h2, h3, h4⟩ := ha m hm
      exact ⟨h1, w', h2, h3, ih _ w' l h4⟩
  exact fun w => key w l (ha w)

theorem agrees_predLoop (hI : ∀ m, I true m → I false m) {f : Nat → Item F → (Bool → QGen F) → QGen F} {f' : Nat → Item F → Bool ⊕ Tail}
    (hf : ∀ w pos x k s, (∀ b, f' pos x = .inl b → ∀ w', (w = true → w' = true) → (k b).AgreesAt I w' s) →
      (∀ t, f' pos x = .inr t → s = ⟨[], t⟩) → (f pos x k).AgreesAt I w s)
    {a : QGen F} {r : Res F} (ha : a.Agrees I r) (pos : Nat) : (predLoopG f a pos).Agrees I (predLoop f' r.tail pos r.items) := by
  have key : ∀ (w : Bool) (r : Res F) (pos : Nat), a.AgreesAt I w r → (predLoopG f a pos).AgreesAt I w (predLoop f' r.tail pos r.items) := by
    clear ha
    induction a with
    | stop t =>
      intro w r pos ha
      have ha : r = ⟨[], t⟩ := ha
      subst ha
      rfl
    | yield x g ih =>
      intro w r pos ha
      obtain ⟨r', h1, rfl⟩ := ha
      unfold predLoopG predLoop
      refine hf w pos x _ _ ?_ ?_
      · intro b hb w' hw
        have h2 := ih w' r' (pos + 1) (agreesAt_mono hI hw h1)
        rw [hb]
        cases b with
        | true => exact ⟨_, h2, rfl⟩
        | false => exact h2
      · intro t ht
        rw [ht]
    | act u k ih =>
      intro w r pos ha m hm
      obtain ⟨h1, w', h2, h3, h4⟩ := ha m hm
      exact ⟨h1, w', h2, h3, ih _ w' r pos h4⟩
  exact fun w => key w r pos (ha w)

theorem agrees_strArg {a : QGen F} {r : Res F} {f : Str → QGen F} {f' : Str → Res F} (ha : a.Agrees I r)
    (hf : ∀ x, (f x).Agrees I (f' x)) : (strArgG fo doc a f).Agrees I (strArg fo doc r f') :=
  agrees_orDefault _ ha fun _ => hf _

theorem agrees_str2 (f : Str → Str → Res F) {gs : List (QGen F)} {rs : List (Res F)} (hs : All2 (QGen.Agrees I) gs rs) :
    (fnStr2G fo doc f gs).Agrees I (fnStr2 fo doc f rs) := by
  cases hs with
  | nil => exact agrees_fail
  | cons ha hs =>
    cases hs with
    | nil => exact agrees_fail
    | cons hb hs =>
      cases hs with
      | nil => exact agrees_strArg fo doc ha fun s => agrees_strArg fo doc hb fun t => agrees_ofRes _
      | cons _ _ => exact agrees_fail

theorem agrees_appendAll {gs : List (QGen F)} {rs : List (Res F)} (hs : All2 (QGen.Agrees I) gs rs) :
    (gs.foldr QGen.append (.stop .done)).Agrees I (rs.foldr Res.append Res.nil) := by
  induction hs with
  | nil => exact agrees_stop
  | cons h1 _ ih => exact agrees_append h1 ih

theorem agrees_concat {gs : List (QGen F)} {rs : List (Res F)} (hs : All2 (QGen.Agrees I) gs rs) :
    (concatG fo doc gs).Agrees I (concatRes fo doc rs) := by
  refine agrees_toList (agrees_appendAll hs) ?_ ?_
  · intro h
    unfold concatRes
    simp only [h]
    exact agrees_one _
  · intro h
    unfold concatRes
    dsimp only
    cases ht : (rs.foldr Res.append Res.nil).tail with
    | done => exact absurd ht h
    | err e => rfl
    | out => rfl

/-- A function of at most one argument. -/
theorem agrees_args (g : List (QGen F) → QGen F) (g' : List (Res F) → Res F) (h0 : (g []).Agrees I (g' []))
    (h1 : ∀ a a', a.Agrees I a' → (g [a]).Agrees I (g' [a']))
    (h2 : ∀ a b l a' b' l', (g (a :: b :: l)).Agrees I (g' (a' :: b' :: l'))) {gs rs} (hs : All2 (QGen.Agrees I) gs rs) :
    (g gs).Agrees I (g' rs) := by
  cases hs with
  | nil => exact h0
  | cons ha hs =>
    cases hs with
    | nil => exact h1 _ _ ha
    | cons _ _ => exact h2 _ _ _ _ _ _

/-- What an expression given as a text gives. -/
def AgreesDyn (I : Bool → Marks → Prop) (d : Except XErr (Item F → QGen F)) (d' : Except XErr (Item F → Res F)) : Prop :=
  (∃ e, d = .error e ∧ d' = .error e) ∨ ∃ g g', d = .ok g ∧ d' = .ok g' ∧ ∀ x, (g x).Agrees I (g' x)

theorem agrees_call (hI : ∀ m, I true m → I false m) {dyn : Str → Except XErr (Item F → QGen F)} {dyn' : Str → Except XErr (Item F → Res F)}
    (x : Item F) (m : Str) (hdyn : m = "for-each".toList → ∀ s, AgreesDyn I (dyn s) (dyn' s))
    (es : List (Expr F)) {gs rs} (hs : All2 (QGen.Agrees I) gs rs) :
    (callFnG fo doc dyn x m es gs).Agrees I (callFn fo doc dyn' x m es rs) := by
  have hconst : ∀ {y : Item F}, (fnConstG y gs).Agrees I (fnConst (.one y) rs) := by
    intro r
    unfold fnConst
    cases hs with
    | nil => exact agrees_one _
    | cons _ _ => exact agrees_fail
  have htodo : ∀ k, (fnTodoG k gs).Agrees I (fnTodo k rs) := by
    intro k
    unfold fnTodo fnTodoG
    rw [all2_length hs]
    split <;> exact agrees_fail
  unfold callFn callFnG
  by_cases hc0 : m = "name".toList
  · rw [if_pos hc0, if_pos hc0]
    exact agrees_args (fnNameG doc x) (fnName doc x) (agrees_one _) (fun a a' ha => agrees_orDefault _ ha fun y => agrees_one _) (fun _ _ _ _ _ _ => agrees_fail) hs
  rw [if_neg hc0, if_neg hc0]
  by_cases hc1 : m = "last".toList
  · rw [if_pos hc1, if_pos hc1]
    exact hconst
  rw [if_neg hc1, if_neg hc1]
  by_cases hc2 : m = "count".toList
  · rw [if_pos hc2, if_pos hc2]
    refine agrees_args (fnCountG) (fnCount) agrees_fail (fun a a' ha => ?_) (fun _ _ _ _ _ _ => agrees_fail) hs
    unfold fnCount fnCountG
    refine agrees_toList ha ?_ ?_
    · intro h; dsimp only; rw [if_pos h]; exact agrees_one _
    · intro h; dsimp only; rw [if_neg h]
  rw [if_neg hc2, if_neg hc2]
  by_cases hc3 : m = "string".toList
  · rw [if_pos hc3, if_pos hc3]
    exact agrees_args (fnStringG fo doc x) (fnString fo doc x) (agrees_one _) (fun a a' ha => agrees_orDefault _ ha fun y => agrees_one _) (fun _ _ _ _ _ _ => agrees_fail) hs
  rw [if_neg hc3, if_neg hc3]
  by_cases hc4 : m = "concat".toList
  · rw [if_pos hc4, if_pos hc4]
    exact agrees_concat fo doc hs
  rw [if_neg hc4, if_neg hc4]
  by_cases hc5 : m = "starts-with".toList
  · rw [if_pos hc5, if_pos hc5]
    exact agrees_str2 fo doc _ hs
  rw [if_neg hc5, if_neg hc5]
  by_cases hc6 : m = "contains".toList
  · rw [if_pos hc6, if_pos hc6]
    exact agrees_str2 fo doc _ hs
  rw [if_neg hc6, if_neg hc6]
  by_cases hc7 : m = "substring-before".toList
  · rw [if_pos hc7, if_pos hc7]
    exact agrees_str2 fo doc _ hs
  rw [if_neg hc7, if_neg hc7]
  by_cases hc8 : m = "substring-after".toList
  · rw [if_pos hc8, if_pos hc8]
    exact agrees_str2 fo doc _ hs
  rw [if_neg hc8, if_neg hc8]
  by_cases hc9 : m = "substring".toList
  · rw [if_pos hc9, if_pos hc9]
    unfold fnSubstring fnSubstringG
    match es with
    | [e0, e1, e2] =>
      simp only []
      cases hs with
      | nil => exact agrees_fail
      | cons h1 _ => exact agrees_strArg fo doc h1 fun s => agrees_ofRes _
    | [] => exact agrees_fail
    | [_] => exact agrees_fail
    | [_, _] => exact agrees_fail
    | _ :: _ :: _ :: _ :: _ => exact agrees_fail
  rw [if_neg hc9, if_neg hc9]
  by_cases hc10 : m = "string-length".toList
  · rw [if_pos hc10, if_pos hc10]
    refine agrees_args (fnLengthG doc) (fnLength doc) agrees_fail (fun a a' ha => ?_) (fun _ _ _ _ _ _ => agrees_fail) hs
    unfold fnLength fnLengthG
    refine agrees_orDefault _ ha fun y => ?_
    cases y.strOf doc with
    | none => exact agrees_fail
    | some s => exact agrees_one _
  rw [if_neg hc10, if_neg hc10]
  by_cases hc11 : m = "boolean".toList
  · rw [if_pos hc11, if_pos hc11]
    exact agrees_args (fnBooleanG fo doc) (fnBoolean fo doc) agrees_fail (fun a a' ha => agrees_orDefault _ ha fun y => agrees_one _) (fun _ _ _ _ _ _ => agrees_fail) hs
  rw [if_neg hc11, if_neg hc11]
  by_cases hc12 : m = "not".toList
  · rw [if_pos hc12, if_pos hc12]
    exact agrees_args (fnNotG fo doc) (fnNot fo doc) agrees_fail (fun a a' ha => agrees_orDefault _ ha fun y => agrees_one _) (fun _ _ _ _ _ _ => agrees_fail) hs
  rw [if_neg hc12, if_neg hc12]
  by_cases hc13 : m = "true".toList
  · rw [if_pos hc13, if_pos hc13]
    exact hconst
  rw [if_neg hc13, if_neg hc13]
  by_cases hc14 : m = "false".toList
  · rw [if_pos hc14, if_pos hc14]
    exact hconst
  rw [if_neg hc14, if_neg hc14]
  by_cases hc15 : m = "number".toList
  · rw [if_pos hc15, if_pos hc15]
    exact agrees_args (fnNumberG fo doc) (fnNumber fo doc) (agrees_one _) (fun a a' ha => agrees_orDefault _ ha fun y => agrees_ofRes _) (fun _ _ _ _ _ _ => agrees_fail) hs
  rw [if_neg hc15, if_neg hc15]
  by_cases hc16 : m = "for-each".toList
  · rw [if_pos hc16, if_pos hc16]
    unfold fnForEach fnForEachG
    cases hs with
    | nil => exact agrees_fail
    | cons h1 hs =>
      cases hs with
      | nil => exact agrees_fail
      | cons h2 hs =>
        cases hs with
        | nil =>
          refine agrees_strArg fo doc h2 fun s => ?_
          rcases hdyn hc16 s with ⟨e, e1, e2⟩ | ⟨g, g', e1, e2, e3⟩
          · rw [e1, e2]; exact agrees_fail
          · rw [e1, e2]
            exact agrees_bind hI h1 fun y => e3 _
        | cons _ _ => exact agrees_fail
  rw [if_neg hc16, if_neg hc16]
  by_cases hc17 : m = "lookup".toList
  · rw [if_pos hc17, if_pos hc17]
    exact agrees_str2 fo doc _ hs
  rw [if_neg hc17, if_neg hc17]
  by_cases hc18 : m = "normalize-space".toList ∨ m = "sum".toList ∨ m = "floor".toList ∨ m = "ceiling".toList ∨ m = "round".toList
  · rw [if_pos hc18, if_pos hc18]
    exact htodo _
  rw [if_neg hc18, if_neg hc18]
  by_cases hc19 : m = "translate".toList ∨ m = "same-lang".toList
  · rw [if_pos hc19, if_pos hc19]
    exact htodo _
  rw [if_neg hc19, if_neg hc19]
  exact agrees_fail

end

end Amara
