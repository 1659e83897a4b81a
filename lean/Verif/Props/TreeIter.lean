import Verif.Lemmas.TreeIter
import Verif.Props.Tree
import Verif.Props.Expat
/-
Properties C33 to C36 and C65: the tree sender.
-/
namespace Amara

theorem matchState_iff : ∀ (xs : List Event) {st : List (Stage Event)}, st ≠ [] →
    (matchState st xs = some true ↔ ∃ zs, zs <+: xs ∧ firstAt Event.look st zs = true) := by
  intro xs
  induction xs with
  | nil =>
    intro st hst
    cases st with
    | nil => exact absurd rfl hst
    | cons s r =>
      simp [matchState, firstAt]
  | cons x xs ih =>
    intro st hst
    cases st with
    | nil => exact absurd rfl hst
    | cons s r =>
      have key : (∃ zs, zs <+: x :: xs ∧ firstAt Event.look (s :: r) zs = true) ↔
          ∃ zs, zs <+: xs ∧ firstAt Event.look (s :: r) (x :: zs) = true := by
        constructor
        · rintro ⟨zs, ⟨w, hw⟩, h⟩
          cases zs with
          | nil => simp [firstAt] at h
          | cons z zs =>
            simp only [List.cons_append, List.cons.injEq] at hw
            obtain ⟨rfl, rfl⟩ := hw
            exact ⟨zs, ⟨w, rfl⟩, h⟩
        · rintro ⟨zs, ⟨w, hw⟩, h⟩
          exact ⟨x :: zs, ⟨w, by simp [hw]⟩, h⟩
      rw [key, matchState]
      simp only [firstAt]
      cases hp : patStep Event.look (s :: r) x with
      | none => simp
      | typeError => simp
      | to st' =>
        cases st' with
        | nil => simp only [true_iff]; exact ⟨[], by simp, rfl⟩
        | cons s' r' => exact ih (by simp)

theorem opened_starts {x : Node} {anc r t} (h : x.opened anc r = some t) : AllStarts t := by
  induction r generalizing x anc t with
  | nil =>
    cases x with
    | text s => simp [Node.opened] at h
    | elem n as cs =>
      simp only [Node.opened, Option.some.injEq] at h
      subst h
      intro y hy
      simp only [List.mem_singleton] at hy
      subst hy
      exact ⟨n, rfl⟩
  | cons i r ih =>
    cases x with
    | text s => simp [Node.opened] at h
    | elem n as cs =>
      rw [Node.opened] at h
      cases hc : cs[i]? with
      | none => rw [hc] at h; cases h
      | some y =>
        rw [hc] at h
        simp only [Option.map_eq_some_iff] at h
        obtain ⟨t', h', rfl⟩ := h
        intro z hz
        rcases List.mem_cons.1 hz with rfl | hz
        · exact ⟨n, rfl⟩
        · exact ih h' z hz

theorem stretched_starts {n k : Nat} {t : List Event} (h : AllStarts t) : AllStarts (stretched n k t) := by
  induction t with
  | nil => exact h
  | cons x xs ih =>
    cases xs with
    | nil =>
      intro y hy
      have := List.eq_of_mem_replicate hy
      subst this
      exact h _ (by simp)
    | cons z zs =>
      intro y hy
      rcases List.mem_append.1 hy with hy | hy
      · have := List.eq_of_mem_replicate hy
        subst this
        exact h _ (by simp)
      · exact ih (fun w hw => h w (by simp [hw])) y hy

theorem exists_shortest {p : List (Stage Event)} {t zs : List Event} (hz : zs <+: t) (h : Lays Event.look p zs) :
    ∃ ys, ys <+: t ∧ Outermost Event.look p ys := by
  suffices H : ∀ n (zs : List Event), zs.length ≤ n → zs <+: t → Lays Event.look p zs →
      ∃ ys, ys <+: t ∧ Outermost Event.look p ys from H _ zs (Nat.le_refl _) hz h
  intro n
  induction n with
  | zero =>
    intro zs hn hz h
    have : zs = [] := List.length_eq_zero_iff.1 (Nat.le_zero.1 hn)
    subst this
    exact ⟨[], hz, h, fun ys hy hne => absurd (List.prefix_nil.1 hy) hne⟩
  | succ n ih =>
    intro zs hn hz h
    by_cases hex : ∃ ys, ys <+: zs ∧ ys ≠ zs ∧ Lays Event.look p ys
    · obtain ⟨ys, h1, h2, h3⟩ := hex
      have hlt : ys.length < zs.length := by
        rcases Nat.lt_or_ge ys.length zs.length with hl | hl
        · exact hl
        · exact absurd (h1.eq_of_length_le hl) h2
      exact ih ys (by omega) (h1.trans hz) h3
    · exact ⟨zs, hz, h, fun ys h1 h2 h3 => hex ⟨ys, h1, h2, h3⟩⟩

theorem trigger_iff {n k : Nat} {st : List (Stage Event)} (hne : st ≠ []) (hs : Safe st) {t : List Event}
    (ht : AllStarts t) : trigger n k st t = true ↔ Reaches st (stretched n k t) := by
  have h1 : trigger n k st t = true ↔ matchState st (stretched n k t) = some true := by simp [trigger]
  rw [h1, matchState_iff _ hne]
  have hst := stretched_starts (n := n) (k := k) ht
  constructor
  · rintro ⟨zs, hz, h⟩
    exact ⟨zs, hz, ((firstAt_iff zs (fun x hx => hst x (hz.subset hx)) st hs).1 h).1⟩
  · rintro ⟨zs, hz, h⟩
    obtain ⟨ys, hy, ho⟩ := exists_shortest hz h
    exact ⟨ys, hy, (firstAt_iff ys (fun x hx => hst x (hy.subset hx)) st hs).2 ho⟩

theorem safe_not_nil {st : List (Stage Event)} (hne : st ≠ []) (hs : Safe st) : ¬ Lays Event.look st [] := by
  intro h
  have := (firstAt_iff (look := Event.look) [] (by simp) st hs).2
    ⟨h, fun ys hy hne => absurd (List.prefix_nil.1 hy) hne⟩
  cases st with
  | nil => exact hne rfl
  | cons s r => simp [firstAt] at this

theorem newSender_pats (pats : List (List (Stage Event))) (k : Nat) :
    (newSender pats).pats[k]? = ((prepPatterns [] pats)[k]?).map fun st => (st, Building.idle) := by
  simp [newSender]

theorem prepPatterns_length : ∀ (pats : List (List (Stage Event))) (prev), (prepPatterns prev pats).length =
    pats.length := by
  intro pats
  induction pats with
  | nil => intro prev; rfl
  | cons p r ih => intro prev; simp [prepPatterns, ih]

/-- What each sink gets, in terms of the decisions of its pattern. -/
theorem sender_run (pats : List (List (Stage Event))) (hp : ∀ st ∈ prepPatterns [] pats, Callable st)
    (e : Node) : ∃ os, (newSender pats).run (quiet (e.events [])) = (os, some (newSender pats)) ∧
      (∀ o ∈ os, strays o = []) ∧ os.length = (e.events []).length ∧
      ∀ k st, (prepPatterns [] pats)[k]? = some st →
        Delivers (fun q => ∃ t, e.opened [] q = some t ∧ FirstFrom (trigger pats.length k st) [] t)
          (e.marks [] []) (os.map (sentTo k)) := by
  have hl : (newSender pats).pats.length = pats.length := by simp [newSender, prepPatterns_length]
  obtain ⟨os, pats', h1, h2, h3, h4, h5⟩ := run_solo (e.events []) [] (newSender pats).pats
    (events_path.1 e [] []).2 (by
      intro p hp'
      simp only [newSender, List.mem_map] at hp'
      obtain ⟨st, hst, rfl⟩ := hp'
      exact ⟨hp st hst, rfl⟩)
  have hstack : (⟨dup (newSender pats).pats.length [], (newSender pats).pats⟩ : Sender) = newSender pats := rfl
  rw [hstack, (events_path.1 e [] []).1] at h1
  rw [hl] at h5 h2
  have hD : ∀ k st, (prepPatterns [] pats)[k]? = some st → ∃ o, soloRun (trigger pats.length k st) [] .idle
      (e.events []) = (o, [], .idle) ∧ Delivers (fun q => ∃ t, e.opened [] q = some t ∧
        FirstFrom (trigger pats.length k st) [] t) (e.marks [] []) o := by
    intro k st _
    exact (solo_idle (trigger pats.length k st) _).1 e [] [] [] fun r => Iff.rfl
  have hsame : pats' = (newSender pats).pats := by
    apply List.ext_getElem?
    intro k
    cases hk : (prepPatterns [] pats)[k]? with
    | none =>
      rw [newSender_pats, hk]
      rw [List.getElem?_eq_none_iff] at hk
      rw [Option.map_none, List.getElem?_eq_none_iff, h2, ← prepPatterns_length pats []]
      exact hk
    | some st =>
      have hb : (newSender pats).pats[k]? = some (st, .idle) := by rw [newSender_pats, hk]; rfl
      obtain ⟨k1, _⟩ := h5 k st _ hb
      obtain ⟨o, ho, _⟩ := hD k st hk
      rw [k1, hb, ho]
  refine ⟨os, ?_, h3, h4, ?_⟩
  · rw [h1, hsame]; rfl
  · intro k st hk
    have hb : (newSender pats).pats[k]? = some (st, .idle) := by rw [newSender_pats, hk]; rfl
    obtain ⟨_, k2⟩ := h5 k st _ hb
    obtain ⟨o, ho, hd⟩ := hD k st hk
    rw [k2, ho]
    exact hd

theorem delivers_congr {F G : Path → Prop} (h : ∀ q, F q ↔ G q) {ms os} (hd : Delivers F ms os) :
    Delivers G ms os := by
  induction hd with
  | nil => exact .nil
  | inside _ ih => exact .inside ih
  | match_ hF _ ih => exact .match_ ((h _).1 hF) ih
  | other hF _ ih => exact .other (fun hg => hF ((h _).2 hg)) ih

theorem stretched_one : ∀ (t : List Event), stretched 1 0 t = t := by
  intro t
  induction t with
  | nil => rfl
  | cons x xs ih =>
    cases xs with
    | nil => rfl
    | cons y ys =>
      show List.replicate 1 x ++ stretched 1 0 (y :: ys) = _
      rw [ih]; rfl

theorem first_iff {n k : Nat} {st : List (Stage Event)} (hne : st ≠ []) (hs : Safe st) {t : List Event}
    (ht : AllStarts t) : FirstFrom (trigger n k st) [] t ↔
      Reaches st (stretched n k t) ∧ ∀ t', t' <+: t → t' ≠ t → ¬ Reaches st (stretched n k t') := by
  have hsub : ∀ {t' : List Event}, t' <+: t → AllStarts t' := fun h x hx => ht x (h.subset hx)
  simp only [FirstFrom, List.nil_append]
  rw [trigger_iff hne hs ht]
  refine and_congr_right fun _ => ?_
  constructor
  · intro h t' h1 h2 hr
    by_cases h3 : t' = []
    · subst h3
      obtain ⟨zs, hz, hl⟩ := hr
      have : zs = [] := List.prefix_nil.1 hz
      subst this
      exact safe_not_nil hne hs hl
    · have := h t' h1 h2 h3
      rw [(trigger_iff hne hs (hsub h1)).2 hr] at this
      cases this
  · intro h t' h1 h2 h3
    have := h t' h1 h2
    rw [← trigger_iff hne hs (hsub h1)] at this
    simpa using this

theorem first_single_iff {st : List (Stage Event)} (hne : st ≠ []) (hs : Safe st) {t : List Event}
    (ht : AllStarts t) : FirstFrom (trigger 1 0 st) [] t ↔ Outermost Event.look st t := by
  rw [first_iff hne hs ht]
  simp only [stretched_one]
  constructor
  · rintro ⟨⟨zs, hz, hl⟩, h2⟩
    by_cases he : zs = t
    · subst he
      exact ⟨hl, fun ys h1 h3 h4 => h2 ys h1 h3 ⟨ys, List.prefix_refl _, h4⟩⟩
    · exact absurd ⟨zs, List.prefix_refl _, hl⟩ (h2 zs hz he)
  · rintro ⟨hl, h⟩
    refine ⟨⟨t, List.prefix_refl _, hl⟩, ?_⟩
    rintro t' h1 h2 ⟨zs, hz, hl'⟩
    refine h zs (hz.trans h1) ?_ hl'
    intro he
    subst he
    exact h2 (h1.eq_of_length_le hz.length_le)

theorem callable_prep : ∀ (pats : List (List (Stage Event))) (prev : List (Stage Event)), (prev = [] ∨ Callable prev) →
    (∀ p ∈ pats, Callable p) → ∀ st ∈ prepPatterns prev pats, Callable st := by
  intro pats
  induction pats with
  | nil => intro prev _ _ st hst; cases hst
  | cons p r ih =>
    intro prev hprev hall st hst
    have hp := hall p (by simp)
    have happ : ∀ (q : List (Stage Event)), Callable q → Callable (q ++ prev) := by
      rcases hprev with rfl | hprev
      · intro q hq; rwa [List.append_nil]
      · intro q
        induction q with
        | nil => intro _; exact hprev
        | cons s q ih =>
          intro hq
          rcases callable_tail hq with rfl | hq'
          · cases prev with
            | nil => exact hprev.elim
            | cons a b => exact hprev
          · have := ih hq'
            cases hqp : q ++ prev with
            | nil => rw [hqp] at this; exact this.elim
            | cons a b =>
              rw [hqp] at this
              rw [List.cons_append, hqp]
              exact this
    rcases List.mem_cons.1 hst with rfl | hst
    · exact happ p hp
    · exact ih _ (.inr (happ p hp)) (fun q hq => hall q (by simp [hq])) st hst

theorem parse_of_drive {w : Str} {evs : List Event} (hd : drive w = (evs, .returned)) (s : Sender) :
    s.parse w = s.run (quiet evs) := by
  simp only [Sender.parse, hd, quiet]
  cases s.run (evs.map fun ev => (ev, fun _ => none)) with
  | mk o r => cases r <;> rfl

theorem drive_doc {e : Node} {w : Str} (h : IsDoc e w) : drive w = (e.events [], .returned) := by
  obtain ⟨⟨_, hsd, _⟩, _⟩ := C01_valid_text_delivers_its_events h
  rw [drive_eq, hsd]

/-! ### C33 -/

/-- C33 (for the patterns that mean what they say, `Safe`).  With one pattern, every document element: with
each event the sink is sent exactly what it should be — at the end of an element whose path matches the pattern
and which is inside no other match that element with all its content, otherwise nothing — and nothing raises. -/
theorem C33_outermost_matches_sent_partial (e : Node) (p : List (Stage Event)) (hne : p ≠ []) (hs : Safe p) :
    ∃ os, (newSender [p]).run (quiet (e.events [])) = (os, some (newSender [p])) ∧
      Delivers (fun q => ∃ t, e.opened [] q = some t ∧ Outermost Event.look p t) (e.marks [] [])
        (os.map (sentTo 0)) := by
  have hc := (callable_of_safe _ p (Nat.le_refl _)).1 hne hs
  obtain ⟨os, h1, _, _, h4⟩ := sender_run [p] (callable_prep _ _ (.inl rfl) (by simpa using hc)) e
  refine ⟨os, h1, delivers_congr (fun q => ?_) (h4 0 p (by simp [prepPatterns]))⟩
  constructor
  · rintro ⟨t, h1, h2⟩; exact ⟨t, h1, (first_single_iff hne hs (opened_starts h1)).1 h2⟩
  · rintro ⟨t, h1, h2⟩; exact ⟨t, h1, (first_single_iff hne hs (opened_starts h1)).2 h2⟩

/-- The same from the text of a document. -/
theorem C33_parse_partial {e : Node} {w : Str} (h : IsDoc e w) (p : List (Stage Event)) (hne : p ≠ [])
    (hs : Safe p) : ∃ os, (newSender [p]).parse w = (os, some (newSender [p])) ∧
      Delivers (fun q => ∃ t, e.opened [] q = some t ∧ Outermost Event.look p t) (e.marks [] [])
        (os.map (sentTo 0)) := by
  obtain ⟨os, h1, h2⟩ := C33_outermost_matches_sent_partial e p hne hs
  exact ⟨os, by rw [parse_of_drive (drive_doc h), h1], h2⟩

/-! Everything that is sent, in order. -/

theorem at_opened : ∀ {q : Path} {x : Node} {anc t}, x.opened anc q = some t → ∃ y, x.at? q = some y ∧
    y.isText = false := by
  intro q
  induction q with
  | nil =>
    intro x anc t h
    cases x with
    | text s => simp [Node.opened] at h
    | elem n as cs => exact ⟨_, rfl, rfl⟩
  | cons i q ih =>
    intro x anc t h
    cases x with
    | text s => simp [Node.opened] at h
    | elem n as cs =>
      rw [Node.opened] at h
      simp only [Node.at?, Node.xmlChildren]
      cases hc : cs[i]? with
      | none => rw [hc] at h; cases h
      | some y =>
        rw [hc] at h
        simp only [Option.map_eq_some_iff] at h
        obtain ⟨t', h', _⟩ := h
        exact ih h'

/-- One position is a proper part of the other: the element there contains the other one. -/
def Above (q q' : Path) : Prop := ∃ i r, q' = q ++ i :: r

/-- The marks are the elements with their positions, in the order of their ends. -/
theorem marks_list :
    (∀ (x : Node) (p : Path) (anc : List Str),
      (∀ q y, (q, y) ∈ (x.marks p anc).filterMap (·.2) ↔ ∃ r, q = p ++ r ∧ x.at? r = some y ∧ y.isText = false) ∧
      ((x.marks p anc).filterMap (·.2)).Pairwise fun a b => docLt a.1 b.1 ∨ Above b.1 a.1) ∧
    (∀ (xs : List Node) (p : Path) (i : Nat) (anc : List Str),
      (∀ q y, (q, y) ∈ (Node.marksList p i anc xs).filterMap (·.2) ↔
        ∃ j x r, xs[j]? = some x ∧ q = p ++ (i + j) :: r ∧ x.at? r = some y ∧ y.isText = false) ∧
      ((Node.marksList p i anc xs).filterMap (·.2)).Pairwise fun a b => docLt a.1 b.1 ∨ Above b.1 a.1) := by
  apply Node.induct
  case elem =>
    intro n as cs ih p anc
    obtain ⟨h1, h2⟩ := ih p 0 (anc ++ [n])
    rw [Node.marks]
    simp only [List.filterMap_cons, List.filterMap_append, List.filterMap_nil]
    refine ⟨fun q y => ?_, ?_⟩
    · rw [List.mem_append, h1]
      constructor
      · rintro (⟨j, x, r, a, b, c, d⟩ | h)
        · refine ⟨j :: r, by simpa using b, ?_, d⟩
          simp only [Node.at?, Node.xmlChildren, a]; exact c
        · simp only [List.mem_singleton, Prod.mk.injEq] at h
          obtain ⟨rfl, rfl⟩ := h
          exact ⟨[], by simp, rfl, rfl⟩
      · rintro ⟨r, a, b, c⟩
        cases r with
        | nil =>
          simp only [Node.at?, Option.some.injEq] at b
          subst b
          right; simp [a]
        | cons i r =>
          left
          simp only [Node.at?, Node.xmlChildren] at b
          cases hc : cs[i]? with
          | none => rw [hc] at b; cases b
          | some z =>
            rw [hc] at b
            exact ⟨i, z, r, hc, by simpa using a, b, c⟩
    · rw [List.pairwise_append]
      refine ⟨h2, by simp, fun a ha b hb => ?_⟩
      simp only [List.mem_singleton] at hb
      subst hb
      obtain ⟨j, x, r, _, b, _⟩ := (h1 a.1 a.2).1 ha
      exact .inr ⟨_, _, b⟩
  case text =>
    intro s p anc
    refine ⟨fun q y => ?_, by simp [Node.marks]⟩
    simp only [Node.marks, List.filterMap_cons, List.filterMap_nil, List.not_mem_nil, false_iff]
    rintro ⟨r, _, b, c⟩
    cases r with
    | nil => simp only [Node.at?, Option.some.injEq] at b; subst b; cases c
    | cons i r => simp [Node.at?, Node.xmlChildren] at b
  case nil => intro p i anc; simp [Node.marksList]
  case cons =>
    intro x xs ihx ihr p i anc
    obtain ⟨h1, h2⟩ := ihx (p ++ [i]) anc
    obtain ⟨h3, h4⟩ := ihr p (i + 1) anc
    rw [Node.marksList]
    simp only [List.filterMap_append]
    refine ⟨fun q y => ?_, ?_⟩
    · rw [List.mem_append, h1, h3]
      constructor
      · rintro (⟨r, a, b, c⟩ | ⟨j, z, r, a, b, c, d⟩)
        · exact ⟨0, x, r, rfl, by simpa using a, b, c⟩
        · refine ⟨j + 1, z, r, by simpa using a, ?_, c, d⟩
          rw [b, show i + (j + 1) = i + 1 + j from by omega]
      · rintro ⟨j, z, r, a, b, c, d⟩
        cases j with
        | zero =>
          simp only [List.getElem?_cons_zero, Option.some.injEq] at a
          subst a
          exact .inl ⟨r, by simpa using b, c, d⟩
        | succ j =>
          refine .inr ⟨j, z, r, by simpa using a, ?_, c, d⟩
          rw [b, show i + (j + 1) = i + 1 + j from by omega]
    · rw [List.pairwise_append]
      refine ⟨h2, h4, fun a ha b hb => ?_⟩
      obtain ⟨r, a1, _⟩ := (h1 a.1 a.2).1 ha
      obtain ⟨j, z, r', _, b1, _⟩ := (h3 b.1 b.2).1 hb
      left
      rw [a1, b1, List.append_assoc]
      have : ∀ (p : Path), docLt (p ++ ([i] ++ r)) (p ++ (i + 1 + j) :: r') := by
        intro p
        induction p with
        | nil => exact .inl (by omega)
        | cons k p ih => exact .inr ⟨rfl, ih⟩
      exact this p

theorem delivers_list {F : Path → Prop} {ms os} (hd : Delivers F ms os) :
    ∃ l : List (Path × Node), os.flatten = l.map (·.2) ∧ l.Sublist (ms.filterMap (·.2)) ∧
      ∀ q x, (q, x) ∈ l ↔ (q, x) ∈ ms.filterMap (·.2) ∧ F q := by
  induction hd with
  | nil => exact ⟨[], rfl, .slnil, by simp⟩
  | inside _ ih =>
    obtain ⟨l, h1, h2, h3⟩ := ih
    exact ⟨l, by simpa using h1, by simpa using h2, by simpa using h3⟩
  | @match_ ev q x ms os hF _ ih =>
    obtain ⟨l, h1, h2, h3⟩ := ih
    refine ⟨(q, x) :: l, by simp [h1], by simpa using h2, fun q' x' => ?_⟩
    simp only [List.filterMap_cons, List.mem_cons, h3]
    constructor
    · rintro (h | ⟨h, h'⟩)
      · injection h with a b; subst a; subst b; exact ⟨.inl rfl, hF⟩
      · exact ⟨.inr h, h'⟩
    · rintro ⟨h | h, h'⟩
      · exact .inl h
      · exact .inr ⟨h, h'⟩
  | @other ev q x ms os hF _ ih =>
    obtain ⟨l, h1, h2, h3⟩ := ih
    refine ⟨l, by simpa using h1, by simpa using h2.cons _, fun q' x' => ?_⟩
    simp only [List.filterMap_cons, List.mem_cons, h3]
    constructor
    · rintro ⟨h, h'⟩; exact ⟨.inr h, h'⟩
    · rintro ⟨h | h, h'⟩
      · injection h with a b; subst a; exact absurd h' hF
      · exact ⟨h, h'⟩

theorem opened_append : ∀ {q r : Path} {x : Node} {anc t}, x.opened anc (q ++ r) = some t → ∃ t' t'',
    x.opened anc q = some t' ∧ t = t' ++ t'' ∧ (r ≠ [] → t'' ≠ []) := by
  intro q
  induction q with
  | nil =>
    intro r x anc t h
    cases x with
    | text s => cases r <;> simp [Node.opened] at h
    | elem n as cs =>
      cases r with
      | nil => exact ⟨t, [], h, by simp, fun h => absurd rfl h⟩
      | cons i r =>
        simp only [List.nil_append, Node.opened] at h
        cases hc : cs[i]? with
        | none => rw [hc] at h; cases h
        | some y =>
          rw [hc] at h
          simp only [Option.map_eq_some_iff] at h
          obtain ⟨t', h', rfl⟩ := h
          exact ⟨_, t', rfl, rfl, fun _ => opened_ne_nil h'⟩
  | cons i q ih =>
    intro r x anc t h
    cases x with
    | text s => simp [Node.opened] at h
    | elem n as cs =>
      simp only [List.cons_append, Node.opened] at h ⊢
      cases hc : cs[i]? with
      | none => rw [hc] at h; cases h
      | some y =>
        rw [hc] at h
        simp only [Option.map_eq_some_iff] at h
        obtain ⟨t1, h1, rfl⟩ := h
        obtain ⟨t', t'', a, rfl, c⟩ := ih h1
        exact ⟨.start n as anc :: t', t'', by simp [a], by simp, c⟩

/-- C33, everything that is sent: the elements whose path matches and that lie inside no other match, in
document order, each once. -/
theorem C33_all_sent_partial {e : Node} {w : Str} (h : IsDoc e w) (p : List (Stage Event)) (hne : p ≠ [])
    (hs : Safe p) : ∃ os l, (newSender [p]).parse w = (os, some (newSender [p])) ∧
      (os.map (sentTo 0)).flatten = l.map Prod.snd ∧ InDocOrder l ∧
      ∀ q x, (q, x) ∈ l ↔ e.at? q = some x ∧ x.isText = false ∧
        ∃ t, e.opened [] q = some t ∧ Outermost Event.look p t := by
  obtain ⟨os, h1, h2⟩ := C33_parse_partial h p hne hs
  obtain ⟨l, h3, h4, h5⟩ := delivers_list h2
  obtain ⟨m1, m2⟩ := marks_list.1 e [] []
  have hmem : ∀ q x, (q, x) ∈ l ↔ e.at? q = some x ∧ x.isText = false ∧
        ∃ t, e.opened [] q = some t ∧ Outermost Event.look p t := by
    intro q x
    rw [h5, m1]
    constructor
    · rintro ⟨⟨r, rfl, a, b⟩, c⟩; exact ⟨a, b, c⟩
    · rintro ⟨a, b, c⟩; exact ⟨⟨q, rfl, a, b⟩, c⟩
  refine ⟨os, l, h1, h3, ?_, hmem⟩
  refine List.Pairwise.imp_of_mem ?_ (List.Pairwise.sublist h4 m2)
  rintro ⟨q, x⟩ ⟨q', x'⟩ ha hb (hlt | ⟨i, r, hq⟩)
  · exact hlt
  · obtain ⟨_, _, t, ht, ho⟩ := (hmem _ _).1 ha
    obtain ⟨_, _, t2, ht2, ho2⟩ := (hmem _ _).1 hb
    simp only at hq
    subst hq
    obtain ⟨t', t'', k1, rfl, k3⟩ := opened_append ht
    rw [ht2] at k1
    injection k1 with k1
    subst k1
    exact absurd ho2.1 (ho.2 t2 ⟨t'', rfl⟩ (by
      intro he
      exact k3 (by simp) (by simpa using he.symm)))

/-- Patterns without '**' and those with one '**' followed by one name are `Safe`. -/
example : Safe ([.name ['a'], .oneOf [.name ['b'], .name ['c']], .star] : List (Stage Event)) ∧
    Safe ([.name ['a'], .dstar, .name ['b']] : List (Stage Event)) := by simp [Safe, SafeAfter, SafeRest]

/-- `('a', 'c')` on `<a x='1'>b&lt;<c></c></a>`: the sink gets `<c/>` at its end tag. -/
example : (((newSender [[.name ['a'], .name ['c']]]).parse exText).1.map (sentTo 0)) =
    [[], [], [], [.elem ['c'] [] []], []] := by
  rw [parse_of_drive (drive_doc exText_isDoc)]
  decide

/-- The claim for all patterns is false: '**' takes the first element that fits what follows, so
`('**', 'a', 'b')` does not find the `b` in `<a><a><b></b></a></a>`. -/
theorem C33_full_statement_is_false :
    ∃ (e : Node) (p : List (Stage Event)) (q : Path) (t : List Event) (x : Node), e.at? q = some x ∧
      x.isText = false ∧ e.opened [] q = some t ∧
      Outermost Event.look p t ∧ ∀ o ∈ ((newSender [p]).run (quiet (e.events []))).1, sentTo 0 o = [] := by
  refine ⟨.elem ['a'] [] [.elem ['a'] [] [.elem ['b'] [] []]], [.dstar, .name ['a'], .name ['b']], [0, 0],
    [.start ['a'] [] [], .start ['a'] [] [['a']], .start ['b'] [] [['a'], ['a']]], .elem ['b'] [] [], rfl, rfl,
    rfl, ⟨.more (n := ['a']) rfl (.skip (.one rfl (.one rfl .nil))), ?_⟩, by decide⟩
  intro ys hy hne hl
  obtain ⟨u, y, zs, rfl, _, h⟩ := lays_dstar_split (by simp) hl
  obtain ⟨z, w, rfl, hz, hw⟩ := (lays_single_iff (by simp)).1 h
  cases hw
  obtain ⟨v, hv⟩ := hy
  cases u with
  | nil =>
    simp only [List.nil_append, List.cons_append, List.cons.injEq] at hv
    rw [hv.2.1] at hz; simp [Stage.Accepts, Event.look] at hz
  | cons a u =>
    cases u with
    | nil => simp only [List.nil_append, List.cons_append, List.cons.injEq] at hv; exact hne (by simp [hv])
    | cons b u =>
      have := congrArg List.length hv
      simp at this
      omega

/-- For every pattern that can be called at all, nothing is sent but elements whose path matches. -/
theorem C33_only_matches_sent (e : Node) (p : List (Stage Event)) (hc : Callable p) :
    ∃ os F, (newSender [p]).run (quiet (e.events [])) = (os, some (newSender [p])) ∧
      Delivers F (e.marks [] []) (os.map (sentTo 0)) ∧
      ∀ q, F q → ∃ t, e.opened [] q = some t ∧ Lays Event.look p t := by
  obtain ⟨os, h1, _, _, h4⟩ := sender_run [p] (callable_prep _ _ (.inl rfl) (by simpa using hc)) e
  refine ⟨os, _, h1, h4 0 p (by simp [prepPatterns]), ?_⟩
  rintro q ⟨t, ht, hf⟩
  replace hf : FirstFrom (trigger 1 0 p) [] t := hf
  refine ⟨t, ht, ?_⟩
  have hne : p ≠ [] := by rintro rfl; exact hc
  have hst := opened_starts ht
  have conv : ∀ (t : List Event), trigger 1 0 p t = true ↔ ∃ zs, zs <+: t ∧ firstAt Event.look p zs = true := by
    intro t
    have : trigger 1 0 p t = true ↔ matchState p (stretched 1 0 t) = some true := by simp [trigger]
    rw [this, stretched_one, matchState_iff _ hne]
  obtain ⟨zs, hz, hfa⟩ := (conv t).1 hf.1
  have hzne : zs ≠ [] := by
    rintro rfl
    cases p with
    | nil => exact hne rfl
    | cons s r => simp [firstAt] at hfa
  by_cases he : zs = t
  · subst he
    exact firstAt_sound _ _ hst hfa
  · have := hf.2 zs hz he hzne
    rw [List.nil_append, (conv zs).2 ⟨zs, List.prefix_refl _, hfa⟩] at this
    cases this

theorem trigger_first_iff {n k : Nat} {st : List (Stage Event)} (hne : st ≠ []) {t : List Event} (ht : AllStarts t) :
    trigger n k st t = true ↔ ReachesFirst st (stretched n k t) := by
  have h1 : trigger n k st t = true ↔ matchState st (stretched n k t) = some true := by simp [trigger]
  rw [h1, matchState_iff _ hne]
  have hst := stretched_starts (n := n) (k := k) ht
  constructor
  · rintro ⟨zs, hz, h⟩
    exact ⟨zs, hz, (firstAt_laysFirst zs (fun x hx => hst x (hz.subset hx)) st).1 h⟩
  · rintro ⟨zs, hz, h⟩
    exact ⟨zs, hz, (firstAt_laysFirst zs (fun x hx => hst x (hz.subset hx)) st).2 h⟩

theorem firstFrom_first_iff {n k : Nat} {st : List (Stage Event)} (hne : st ≠ []) {t : List Event} (ht : AllStarts t) :
    FirstFrom (trigger n k st) [] t ↔
      ReachesFirst st (stretched n k t) ∧ ∀ t', t' <+: t → t' ≠ t → ¬ ReachesFirst st (stretched n k t') := by
  have hsub : ∀ {t' : List Event}, t' <+: t → AllStarts t' := fun h x hx => ht x (h.subset hx)
  simp only [FirstFrom, List.nil_append]
  rw [trigger_first_iff hne ht]
  refine and_congr_right fun _ => ?_
  constructor
  · intro h t' h1 h2 hr
    by_cases h3 : t' = []
    · subst h3
      obtain ⟨zs, hz, hl⟩ := hr
      have : zs = [] := List.prefix_nil.1 hz
      subst this
      cases st with
      | nil => exact hne rfl
      | cons s p => exact laysFirst_nil hl
    · have := h t' h1 h2 h3
      rw [(trigger_first_iff hne (hsub h1)).2 hr] at this
      cases this
  · intro h t' h1 h2 _
    have := h t' h1 h2
    rw [← trigger_first_iff hne (hsub h1)] at this
    simpa using this

theorem first_single_first_iff {st : List (Stage Event)} (hne : st ≠ []) {t : List Event} (ht : AllStarts t) :
    FirstFrom (trigger 1 0 st) [] t ↔ LaysFirst Event.look st t := by
  rw [firstFrom_first_iff hne ht]
  simp only [stretched_one]
  constructor
  · rintro ⟨⟨zs, hz, hl⟩, h2⟩
    by_cases he : zs = t
    · subst he; exact hl
    · exact absurd ⟨zs, List.prefix_refl _, hl⟩ (h2 zs hz he)
  · intro hl
    refine ⟨⟨t, List.prefix_refl _, hl⟩, ?_⟩
    rintro t' h1 h2 ⟨zs, hz, hl'⟩
    obtain ⟨r, hr⟩ := hz.trans h1
    have hzs : ∀ x ∈ zs, ∃ n, Event.look x = some n := fun x hx => ht x (hr ▸ by simp [hx])
    have := firstAt_prefix zs st r ((firstAt_laysFirst zs hzs st).2 hl') (by
      rw [hr]; exact (firstAt_laysFirst t ht st).2 hl)
    subst this
    rw [List.append_nil] at hr
    subst hr
    exact h2 (h1.eq_of_length_le hz.length_le)

/-- C33 for every pattern that can be called at all: what is sent is exactly the elements along whose path the
stages can be laid with every '**' ending at the first element that the next stage accepts. -/
theorem C33_exactly_first_fits_sent (e : Node) (p : List (Stage Event)) (hc : Callable p) :
    ∃ os, (newSender [p]).run (quiet (e.events [])) = (os, some (newSender [p])) ∧
      Delivers (fun q => ∃ t, e.opened [] q = some t ∧ LaysFirst Event.look p t) (e.marks [] [])
        (os.map (sentTo 0)) := by
  have hne : p ≠ [] := by rintro rfl; exact hc
  obtain ⟨os, h1, _, _, h4⟩ := sender_run [p] (callable_prep _ _ (.inl rfl) (by simpa using hc)) e
  refine ⟨os, h1, delivers_congr (fun q => ?_) (h4 0 p (by simp [prepPatterns]))⟩
  constructor
  · rintro ⟨t, h1, h2⟩; exact ⟨t, h1, (first_single_first_iff hne (opened_starts h1)).1 h2⟩
  · rintro ⟨t, h1, h2⟩; exact ⟨t, h1, (first_single_first_iff hne (opened_starts h1)).2 h2⟩

/-- The same from the text of a document. -/
theorem C33_parse_exactly_first_fits {e : Node} {w : Str} (h : IsDoc e w) (p : List (Stage Event)) (hc : Callable p) :
    ∃ os, (newSender [p]).parse w = (os, some (newSender [p])) ∧
      Delivers (fun q => ∃ t, e.opened [] q = some t ∧ LaysFirst Event.look p t) (e.marks [] [])
        (os.map (sentTo 0)) := by
  obtain ⟨os, h1, h2⟩ := C33_exactly_first_fits_sent e p hc
  exact ⟨os, by rw [parse_of_drive (drive_doc h), h1], h2⟩

/-- `('**', 'a', 'b')`: the path `a/b` fits, the path `a/a/b` does not. -/
example : LaysFirst Event.look [.dstar, .name ['a'], .name ['b']]
      [.start ['c'] [] [], .start ['a'] [] [['c']], .start ['b'] [] [['c'], ['a']]] ∧
    ¬ LaysFirst Event.look [.dstar, .name ['a'], .name ['b']]
      [.start ['a'] [] [], .start ['a'] [] [['a']], .start ['b'] [] [['a'], ['a']]] := by
  constructor
  · rw [← firstAt_laysFirst _ (by simp [Event.look])]; decide
  · rw [← firstAt_laysFirst _ (by simp [Event.look])]; decide

/-- A pattern that ends in '**' makes the sender raise at the document element. -/
theorem C33_trailing_dstar_raises (e : Node) (n : Str) (as : Attrs) (cs : List Node) (he : e = .elem n as cs) :
    (newSender [[.dstar]]).run (quiet (e.events [])) = ([[]], none) := by
  subst he
  simp [Node.events, quiet, Sender.run, Sender.handle, newSender, prepPatterns, handlePats, handleOne, Building.idle,
    matchState, patStep, Event.look]

/-- C33 for full XML (`xmliter.sender`): when expat's callbacks report the document `e`, with qualified names,
the sink is sent the outermost matches by local name. -/
theorem C33_xml_partial {e : Node} (he : e.isText = false) {cbs : List XCall} (hr : Reports cbs (e.events []))
    (p : List (Stage Event)) (hne : p ≠ []) (hs : Safe p) :
    ∃ os, (newSender [p]).xmlParse cbs = (os, some (newSender [p])) ∧
      Delivers (fun q => ∃ t, e.opened [] q = some t ∧ Outermost Event.look p t) (e.marks [] [])
        (os.map (sentTo 0)) := by
  obtain ⟨os, h1, h2⟩ := C33_outermost_matches_sent_partial e p hne hs
  have hw : WellNested (e.events []) := by
    cases e with
    | text s => cases he
    | elem n as cs => rw [WellNested, track_doc]; simp
  have hx := C43_local_names hr hw
  refine ⟨os, ?_, h2⟩
  simp only [Sender.xmlParse, hx]
  simp only [quiet] at h1
  rw [h1]
  rfl

/-! ### C34 -/

/-- C34 (for `Safe` patterns).  The open elements reach a match exactly if the stages can be laid along the
elements on the way down to one of them. -/
theorem C34_pattern_meaning_partial (p : List (Stage Event)) (hne : p ≠ []) (hs : Safe p) (t : List Event)
    (ht : AllStarts t) : (matchState p t = some true ↔ ∃ zs, zs <+: t ∧ Lays Event.look p zs) ∧
      (matchState p t = some false ↔ ¬ ∃ zs, zs <+: t ∧ Lays Event.look p zs) := by
  have hc := (callable_of_safe _ p (Nat.le_refl _)).1 hne hs
  obtain ⟨v, hv⟩ := matchState_callable t hc
  have h1 : trigger 1 0 p t = true ↔ ∃ zs, zs <+: t ∧ Lays Event.look p zs := by
    have := trigger_iff (n := 1) (k := 0) hne hs ht
    rwa [stretched_one] at this
  rw [← h1]
  simp only [trigger, stretched_one, hv]
  cases v <;> simp

/-- C34, what the code does with every pattern of at least one stage.  If it does not end in '**', the open elements
reach a match exactly if the stages can be laid along the elements down to one of them with every '**' ending at
the first fit, and nothing raises. -/
theorem C34_exactly_first_fits (p : List (Stage Event)) (hc : Callable p) (t : List Event) (ht : AllStarts t) :
    (matchState p t = some true ↔ ReachesFirst p t) ∧ (matchState p t = some false ↔ ¬ ReachesFirst p t) := by
  have hne : p ≠ [] := by rintro rfl; exact hc
  obtain ⟨v, hv⟩ := matchState_callable t hc
  have h1 : trigger 1 0 p t = true ↔ ReachesFirst p t := by
    have := trigger_first_iff (n := 1) (k := 0) hne ht
    rwa [stretched_one] at this
  rw [← h1]
  simp only [trigger, stretched_one, hv]
  cases v <;> simp

/-- If it ends in '**', there is never a match; a TypeError is raised exactly if there is an element below one down
to which the stages before can be laid. -/
theorem C34_trailing_double_star : ∀ (t : List Event), AllStarts t → ∀ (q : List (Stage Event)), (q = [] ∨ Callable q) →
    ∀ (k : Nat), (matchState (q ++ List.replicate (k + 1) .dstar) t = none ↔
      ∃ zs, zs <+: t ∧ zs ≠ t ∧ LaysFirst Event.look q zs) ∧
      matchState (q ++ List.replicate (k + 1) .dstar) t ≠ some true := by
  intro t
  induction t with
  | nil =>
    intro _ q _ k
    refine ⟨?_, by simp [matchState]⟩
    simp only [matchState, reduceCtorEq, false_iff]
    rintro ⟨zs, h1, h2, _⟩
    exact h2 (List.prefix_nil.1 h1)
  | cons x t ih =>
    intro ht q hq k
    obtain ⟨n, hn⟩ := ht x (by simp)
    have ht' : AllStarts t := fun y hy => ht y (by simp [hy])
    rcases hq with rfl | hq
    · simp only [List.nil_append, matchState, patStep_dstars hn]
      refine ⟨?_, by simp⟩
      simp only [true_iff]
      exact ⟨[], List.nil_prefix, by simp, .nil⟩
    · have hne : q ≠ [] := by rintro rfl; exact hq
      have key : ∀ r : Prop, (∀ zs, zs <+: t → (LaysFirst Event.look q (x :: zs) ∧ zs ≠ t → r)) →
          ((∃ zs, zs <+: x :: t ∧ zs ≠ x :: t ∧ LaysFirst Event.look q zs) → r) := by
        rintro r h ⟨zs, h1, h2, h3⟩
        cases zs with
        | nil => cases q with
          | nil => exact absurd rfl hne
          | cons s q => exact absurd h3 laysFirst_nil
        | cons y zs =>
          obtain ⟨rfl, h4⟩ := List.cons_prefix_cons.1 h1
          exact h zs h4 ⟨h3, fun h => h2 (by rw [h])⟩
      have hf : ∀ zs, zs <+: t → (LaysFirst Event.look q (x :: zs) ↔ firstAt Event.look q (x :: zs) = true) :=
        fun zs hz => (firstAt_laysFirst _ (by
          intro y hy
          rcases List.mem_cons.1 hy with rfl | hy
          · exact ⟨n, hn⟩
          · exact ht' y (hz.subset hy)) q).symm
      have hfa : ∀ zs, firstAt Event.look q (x :: zs) = match patStep Event.look q x with
          | .to st => firstAt Event.look st zs
          | _ => false := by
        intro zs
        cases q with
        | nil => exact absurd rfl hne
        | cons s q =>
          rw [firstAt]
          cases patStep Event.look (s :: q) x <;> rfl
      rcases callable_step (look := Event.look) hq x with h | ⟨st, h, hst⟩
      · simp only [matchState, patStep_append _ hq, h]
        refine ⟨?_, by simp⟩
        simp only [reduceCtorEq, false_iff]
        refine fun he => key False (fun zs hz ⟨h1, _⟩ => ?_) he
        rw [hf zs hz, hfa, h] at h1
        cases h1
      · have hm : matchState (q ++ List.replicate (k + 1) .dstar) (x :: t) =
            matchState (st ++ List.replicate (k + 1) .dstar) t := by
          rw [matchState, patStep_append _ hq, h]
          simp only [List.replicate_succ]
          cases st <;> rfl
        rw [hm]
        obtain ⟨i1, i2⟩ := ih ht' st hst k
        refine ⟨i1.trans ⟨?_, key _ ?_⟩, i2⟩
        · rintro ⟨zs, h1, h2, h3⟩
          refine ⟨x :: zs, List.cons_prefix_cons.2 ⟨rfl, h1⟩, by simpa using h2, ?_⟩
          rw [hf zs h1, hfa, h]
          exact (firstAt_laysFirst zs (fun y hy => ht' y (h1.subset hy)) st).2 h3
        · rintro zs hz ⟨h1, h2⟩
          rw [hf zs hz, hfa, h] at h1
          exact ⟨zs, hz, h2, (firstAt_laysFirst zs (fun y hy => ht' y (hz.subset hy)) st).1 h1⟩

/-- Every pattern is one or the other, if it has a stage. -/
theorem C34_all_patterns : ∀ (p : List (Stage Event)), p = [] ∨ Callable p ∨
    ∃ q k, p = q ++ List.replicate (k + 1) .dstar ∧ (q = [] ∨ Callable q) := by
  intro p
  induction p with
  | nil => exact .inl rfl
  | cons s p ih =>
    right
    rcases ih with rfl | h | ⟨q, k, rfl, rfl | h⟩
    · by_cases hs : s = .dstar
      · subst hs; exact .inr ⟨[], 0, rfl, .inl rfl⟩
      · exact .inl hs
    · cases p with
      | nil => exact h.elim
      | cons t p => exact .inl h
    · by_cases hs : s = .dstar
      · subst hs
        exact .inr ⟨[], k + 1, by simp [List.replicate_succ], .inl rfl⟩
      · exact .inr ⟨[s], k, rfl, .inr hs⟩
    · right
      refine ⟨s :: q, k, rfl, .inr ?_⟩
      cases q with
      | nil => exact h.elim
      | cons t q => exact h

/-- `('a', '**')` on `a/b` raises, on `a` and on `b/c` it does not match. -/
example : matchState [.name ['a'], .dstar] [.start ['a'] [] [], .start ['b'] [] [['a']]] = none ∧
    matchState [.name ['a'], .dstar] [.start ['a'] [] []] = some false ∧
    matchState [.name ['a'], .dstar] [.start ['b'] [] [], .start ['c'] [] [['b']]] = some false := by decide

/-- For every pattern: a match found is a match. -/
theorem C34_match_found_is_a_match (p : List (Stage Event)) (hne : p ≠ []) (t : List Event) (ht : AllStarts t)
    (h : matchState p t = some true) : ∃ zs, zs <+: t ∧ Lays Event.look p zs := by
  obtain ⟨zs, hz, hf⟩ := (matchState_iff t hne).1 h
  exact ⟨zs, hz, firstAt_sound zs p (fun x hx => ht x (hz.subset hx)) hf⟩

/-- The claim for all patterns is false. -/
theorem C34_full_statement_is_false : ∃ (p : List (Stage Event)) (t : List Event), AllStarts t ∧
    Lays Event.look p t ∧ matchState p t = some false := by
  refine ⟨[.dstar, .name ['a'], .name ['b']],
    [.start ['a'] [] [], .start ['a'] [] [['a']], .start ['b'] [] [['a'], ['a']]], ?_,
    .more (n := ['a']) rfl (.skip (.one rfl (.one rfl .nil))), by decide⟩
  intro x hx
  simp only [List.mem_cons, List.not_mem_nil, or_false] at hx
  rcases hx with rfl | rfl | rfl <;> exact ⟨_, rfl⟩

example : matchState [.name ['a'], .dstar, .name ['b']]
    [.start ['a'] [] [], .start ['c'] [] [['a']], .start ['b'] [] [['a'], ['c']]] = some true := by decide

/-! ### C35 -/

theorem prep_at : ∀ (pats : List (List (Stage Event))) (prev : List (Stage Event)) (k : Nat), k < pats.length →
    (prepPatterns prev pats)[k]? = some ((pats.take (k + 1)).reverse.flatten ++ prev)
  | [], _, _, h => by cases h
  | p :: r, prev, 0, _ => by simp [prepPatterns]
  | p :: r, prev, k + 1, h => by
    have := prep_at r (p ++ prev) k (by simpa using h)
    simp only [prepPatterns, List.getElem?_cons_succ, this, List.take_succ_cons, List.reverse_cons, List.flatten_append,
      List.flatten_cons, List.flatten_nil, List.append_nil, List.append_assoc]

theorem goesBy_prep {pats : List (List (Stage Event))} {k : Nat} {st : List (Stage Event)} (h : GoesBy pats k st) :
    (prepPatterns [] pats)[k]? = some st := by
  rw [prep_at pats [] k h.1, h.2, List.append_nil]

/-- C35, what holds instead of the claim: sink `k` of `n` gets the outermost elements where its pattern, with
all the patterns before it added at its end, matches a beginning of the path in which every element stands `n`
times and the last one `k + 1` times. -/
theorem C35_what_each_sink_gets_partial (e : Node) (pats : List (List (Stage Event))) (hall : ∀ p ∈ pats, Callable p) :
    ∃ os, (newSender pats).run (quiet (e.events [])) = (os, some (newSender pats)) ∧
      (∀ o ∈ os, strays o = []) ∧
      ∀ k st, GoesBy pats k st → Safe st →
        Delivers (fun q => ∃ t, e.opened [] q = some t ∧ Reaches st (stretched pats.length k t) ∧
          ∀ t', t' <+: t → t' ≠ t → ¬ Reaches st (stretched pats.length k t')) (e.marks [] [])
          (os.map (sentTo k)) := by
  have hc := callable_prep pats [] (.inl rfl) hall
  obtain ⟨os, h1, h2, _, h4⟩ := sender_run pats hc e
  refine ⟨os, h1, h2, fun k st hk hs => delivers_congr (fun q => ?_) (h4 k st (goesBy_prep hk))⟩
  have hne : st ≠ [] := by
    rintro rfl
    exact hc [] (List.mem_of_getElem? (goesBy_prep hk))
  constructor
  · rintro ⟨t, h1, h2⟩; exact ⟨t, h1, (first_iff hne hs (opened_starts h1)).1 h2⟩
  · rintro ⟨t, h1, h2⟩; exact ⟨t, h1, (first_iff hne hs (opened_starts h1)).2 h2⟩

/-- The same for all patterns, with every '**' laid up to the first fit. -/
theorem C35_what_each_sink_gets_exactly (e : Node) (pats : List (List (Stage Event))) (hall : ∀ p ∈ pats, Callable p) :
    ∃ os, (newSender pats).run (quiet (e.events [])) = (os, some (newSender pats)) ∧
      (∀ o ∈ os, strays o = []) ∧
      ∀ k st, GoesBy pats k st →
        Delivers (fun q => ∃ t, e.opened [] q = some t ∧ ReachesFirst st (stretched pats.length k t) ∧
          ∀ t', t' <+: t → t' ≠ t → ¬ ReachesFirst st (stretched pats.length k t')) (e.marks [] [])
          (os.map (sentTo k)) := by
  have hc := callable_prep pats [] (.inl rfl) hall
  obtain ⟨os, h1, h2, _, h4⟩ := sender_run pats hc e
  refine ⟨os, h1, h2, fun k st hk => delivers_congr (fun q => ?_) (h4 k st (goesBy_prep hk))⟩
  have hne : st ≠ [] := by
    rintro rfl
    exact hc [] (List.mem_of_getElem? (goesBy_prep hk))
  constructor
  · rintro ⟨t, h1, h2⟩; exact ⟨t, h1, (firstFrom_first_iff hne (opened_starts h1)).1 h2⟩
  · rintro ⟨t, h1, h2⟩; exact ⟨t, h1, (firstFrom_first_iff hne (opened_starts h1)).2 h2⟩

/-- The claim is false: with `('a', 'b')` and `('a', 'c')`, on `<a><b/><c/></a>` no sink gets anything, while
alone each would get its element. -/
theorem C35_full_statement_is_false :
    let e : Node := .elem ['a'] [] [.elem ['b'] [] [], .elem ['c'] [] []]
    let p1 : List (Stage Event) := [.name ['a'], .name ['b']]
    let p2 : List (Stage Event) := [.name ['a'], .name ['c']]
    ((newSender [p1, p2]).run (quiet (e.events []))).1.flatten = [] ∧
    ((newSender [p1]).run (quiet (e.events []))).1.flatten = [.send 0 (.elem ['b'] [] [])] ∧
    ((newSender [p2]).run (quiet (e.events []))).1.flatten = [.send 0 (.elem ['c'] [] [])] := by decide

theorem mem_stretched {n : Nat} (hn : 1 ≤ n) {t : List Event} : ∀ (x : Event), x ∈ stretched n 0 t ↔ x ∈ t := by
  induction t with
  | nil => intro x; rfl
  | cons y ys ih =>
    intro x
    cases ys with
    | nil => simp [stretched]
    | cons z zs =>
      show x ∈ List.replicate n y ++ stretched n 0 (z :: zs) ↔ _
      rw [List.mem_append, ih x, List.mem_replicate]
      simp only [List.mem_cons]
      constructor
      · rintro (⟨_, h⟩ | h)
        · exact .inl h
        · exact .inr h
      · rintro (h | h)
        · exact .inl ⟨by omega, h⟩
        · exact .inr h

theorem reaches_dstar_one {s : Stage Event} (hs : s ≠ .dstar) {t : List Event} (ht : AllStarts t) :
    Reaches [.dstar, s] t ↔ ∃ x ∈ t, s.Accepts Event.look x := by
  constructor
  · rintro ⟨zs, hz, hl⟩
    obtain ⟨u, y, w, rfl, ha, _⟩ := lays_dstar_split hs hl
    exact ⟨y, hz.subset (by simp), ha⟩
  · rintro ⟨x, hx, ha⟩
    obtain ⟨u, w, rfl⟩ := List.append_of_mem hx
    refine ⟨u ++ [x], ⟨w, by simp⟩, ?_⟩
    have : ∀ (u : List Event), AllStarts u → Lays Event.look [.dstar, s] (u ++ [x]) := by
      intro u
      induction u with
      | nil => intro _; exact .skip (.one ha .nil)
      | cons y u ih =>
        intro hu
        obtain ⟨n, hn⟩ := hu y (by simp)
        exact .more hn (ih fun z hz => hu z (by simp [hz]))
    exact this u fun z hz => ht z (by simp [hz])

/-- C35 holds of the first sink if its pattern is `('**', s)`: whatever the other patterns, it gets what it
would get alone. -/
theorem C35_first_sink_partial (e : Node) (s : Stage Event) (hs : s ≠ .dstar) (rest : List (List (Stage Event)))
    (hall : ∀ p ∈ rest, Callable p) :
    ∃ os os', (newSender ([.dstar, s] :: rest)).run (quiet (e.events [])) =
        (os, some (newSender ([.dstar, s] :: rest))) ∧
      (newSender [[.dstar, s]]).run (quiet (e.events [])) = (os', some (newSender [[.dstar, s]])) ∧
      os.map (sentTo 0) = os'.map (sentTo 0) := by
  have hsafe : Safe [Stage.dstar, s] := by
    cases s <;> first | exact absurd rfl hs | simp [Safe, SafeAfter, SafeRest]
  have hc : Callable [Stage.dstar, s] := hs
  obtain ⟨os, h1, _, h3⟩ := C35_what_each_sink_gets_partial e ([.dstar, s] :: rest) (by
    intro p hp
    rcases List.mem_cons.1 hp with rfl | hp
    · exact hc
    · exact hall p hp)
  obtain ⟨os', h1', _, h3'⟩ := C35_what_each_sink_gets_partial e [[.dstar, s]] (by simpa using hc)
  refine ⟨os, os', h1, h1', ?_⟩
  have d1 := h3 0 [.dstar, s] (by simp [GoesBy]) hsafe
  have d2 := h3' 0 [.dstar, s] (by simp [GoesBy]) hsafe
  have uniq : ∀ {F : Path → Prop} {ms os os'}, Delivers F ms os → Delivers F ms os' → os = os' := by
    intro F ms os os' h
    induction h generalizing os' with
    | nil => intro h; cases h; rfl
    | inside _ ih => intro h; cases h with | inside h => rw [ih h]
    | match_ hF _ ih => intro h; cases h with | match_ _ h => rw [ih h] | other hn _ => exact absurd hF hn
    | other hF _ ih => intro h; cases h with | match_ hp _ => exact absurd hp hF | other _ h => rw [ih h]
  have hr : ∀ {t : List Event}, AllStarts t → (Reaches [.dstar, s] (stretched ([Stage.dstar, s] :: rest).length 0 t) ↔
      Reaches [.dstar, s] (stretched [[Stage.dstar, s]].length 0 t)) := by
    intro t ht
    rw [reaches_dstar_one hs (stretched_starts ht), reaches_dstar_one hs (stretched_starts ht)]
    refine exists_congr fun x => and_congr_left fun _ => ?_
    rw [mem_stretched (by simp), mem_stretched (by simp)]
  refine uniq (delivers_congr (fun q => ?_) d1) d2
  refine exists_congr fun t => and_congr_right fun ht => ?_
  have hst := opened_starts ht
  rw [hr hst]
  refine and_congr_right fun _ => ?_
  refine forall_congr' fun t' => ?_
  constructor
  · intro h a b c; exact h a b ((hr (fun x hx => hst x (a.subset hx))).2 c)
  · intro h a b c; exact h a b ((hr (fun x hx => hst x (a.subset hx))).1 c)

example : ((newSender [[.dstar, .name ['b']], [.name ['z']]]).run (quiet (Node.events []
    (.elem ['a'] [] [.elem ['b'] [] [.text ['t']]])))).1.map (sentTo 0) =
      [[], [], [], [.elem ['b'] [] [.text ['t']]], []] := by decide

/-! ### C36 -/

/-- C36.  Whatever the patterns (so long as none makes the sender raise): after a complete document the sender
is as new, and a sequence of documents is handled as each would be by a sender of its own. -/
theorem C36_idle_between_documents (pats : List (List (Stage Event))) (hall : ∀ p ∈ pats, Callable p)
    (ws : List Str) (hw : ∀ w ∈ ws, ∃ e, IsDoc e w) :
    (newSender pats).parseAll ws = (ws.map fun w => ((newSender pats).parse w).1, some (newSender pats)) := by
  induction ws with
  | nil => rfl
  | cons w ws ih =>
    obtain ⟨e, he⟩ := hw w (by simp)
    obtain ⟨os, h1, _⟩ := sender_run pats (callable_prep pats [] (.inl rfl) hall) e
    have hp : (newSender pats).parse w = (os, some (newSender pats)) := by
      rw [parse_of_drive (drive_doc he), h1]
    rw [Sender.parseAll, hp]
    simp only [ih fun w hw' => hw w (by simp [hw']), List.map_cons, hp]

example : Callable ([.name ['a'], .name ['c']] : List (Stage Event)) ∧ ∃ e, IsDoc e exText :=
  ⟨by simp [Callable], _, exText_isDoc⟩

/-- Not so after a document that is cut off or ill-formed: then the next document's matches are missed. -/
theorem C36_not_idle_after_a_failure :
    let s := newSender [[.name ['a'], .name ['b']]]
    let good := "<a><b></b></a>".toList
    ((s.parse good).1.map (sentTo 0)).flatten = [.elem ['b'] [] []] ∧
    ((s.parse "<a><c x='".toList).2.map fun s' => ((s'.parse good).1.map (sentTo 0)).flatten) = some [] := by
  have h1 : drive "<a><b></b></a>".toList =
      (Node.events [] (.elem ['a'] [] [.elem ['b'] [] []]), .returned) := by decide
  have h2 : drive "<a><c x='".toList = ([.start ['a'] [] []], .returned) := by decide
  simp only [parse_of_drive h1, parse_of_drive h2]
  decide

/-! ### C65 -/

/-- C65 is false: a sink that attaches the subtree it receives to an element of its own finds every later
match also appended to that element, before it is sent. -/
theorem C65_moved_subtree_attracts_later_ones :
    let s := newSender [[.name ['a'], .name ['b']]]
    let e : Node := .elem ['a'] [] [.elem ['b'] [] [], .elem ['b'] [] []]
    (s.run ((e.events []).map fun ev => (ev, fun _ => some 7))).1.flatten =
      [.send 0 (.elem ['b'] [] []), .stray 0 7, .send 0 (.elem ['b'] [] [])] := by decide

/-- C65, partial: so long as no sink attaches what it receives, nothing is appended anywhere else. -/
theorem C65_untouched_subtrees_partial (e : Node) (pats : List (List (Stage Event))) (hall : ∀ p ∈ pats, Callable p) :
    ∃ os s', (newSender pats).run (quiet (e.events [])) = (os, some s') ∧ ∀ o ∈ os, strays o = [] := by
  obtain ⟨os, h1, h2, _⟩ := sender_run pats (callable_prep pats [] (.inl rfl) hall) e
  exact ⟨os, _, h1, h2⟩

end Amara
