import Verif.Lemmas.SendersMem
import Verif.Props.SenderMem
/-
C160, C161: a tree sender with several patterns in memory.
-/
namespace Amara

theorem newSender_depths (pats : List (List (Stage Event))) : newDepths pats = ([], depths (newSender pats).pats) := by
  simp [newDepths, depths, newSender, Function.comp_def, Building.idle]

theorem prep_length : ∀ (prev : List (Stage Event)) (pats : List (List (Stage Event))), (prepPatterns prev pats).length = pats.length
  | _, [] => rfl
  | prev, p :: r => by simp [prepPatterns, prep_length (p ++ prev) r]

theorem newSender_patsAre (pats : List (List (Stage Event))) : PatsAre (fun _ => .idle) 0 (newSender pats).pats := by
  intro k p hk
  have := List.mem_of_getElem? hk
  simp only [newSender, List.mem_map] at this
  obtain ⟨st, -, rfl⟩ := this
  rfl

/-- The sender with several patterns, in memory and without. -/
theorem senders_run {D : List Id → Heap → Heap → Prop} (hD : Harmless D) {keep : Bool} {pats : List (List (Stage Event))}
    {evs : List Event} {h : Heap} {s res} (hr : SendersRun D pats.length keep (newDepths pats) evs (.new h) s res) :
    ∃ os fin, (newSender pats).run (quiet evs) = (os, fin) ∧
      ((res = none ∧ fin = none ∧ ∃ bs, MInv pats.length keep bs (sentBy os.flatten) s) ∨
        ∃ stack' pats' bs, res = some (stack', depths pats') ∧ fin = some ⟨stack', pats'⟩ ∧ PatsAre bs 0 pats' ∧
          pats'.length = pats.length ∧ MInv pats.length keep bs (sentBy os.flatten) s) := by
  rw [newSender_depths] at hr
  have := senders_events hD evs (minv_new pats.length keep h) (newSender_patsAre pats)
    (by simp [newSender, prep_length]) hr
  simpa [newSender] using this

/-- C160 (sinks that do not attach what they get to trees of their own).  A sender with any number of patterns, any events, and
any behaviour of the garbage collector and the rest of the program in between that leaves alone what the sender and the sinks
refer to: the objects passed to the sinks are, one for one and in the order of the calls, the trees the sender without memory
sends, to the same sinks — whole and without a parent; if the sinks keep them, they still are when the events have been
handled, and no object belongs to two of them, even if one element matches two patterns; an exception is raised exactly when
the sender without memory raises one. -/
theorem C160_several_patterns {D : List Id → Heap → Heap → Prop} (hD : ∀ roots h h', D roots h h' →
      h.next ≤ h'.next ∧ ∀ i, Reachable h roots i → h'.obj i = h.obj i)
    (keep : Bool) (pats : List (List (Stage Event))) (evs : List Event) (h : Heap) {s r}
    (hr : SendersRun D pats.length keep (newDepths pats) evs (.new h) s r) :
    ∃ os fin, (newSender pats).run (quiet evs) = (os, fin) ∧ SentAs (fun p => p.2.2) s.sent (sentBy os.flatten) ∧
      (keep = true → SentAs (fun _ => s.heap) s.sent (sentBy os.flatten) ∧ NothingShared s.heap (s.sent.map (·.2.1))) ∧
      (r = none ↔ fin = none) := by
  obtain ⟨os, fin, h1, h2⟩ := senders_run (D := D) hD hr
  have key : ∀ bs, MInv pats.length keep bs (sentBy os.flatten) s → SentAs (fun p => p.2.2) s.sent (sentBy os.flatten) ∧
      (keep = true → SentAs (fun _ => s.heap) s.sent (sentBy os.flatten) ∧ NothingShared s.heap (s.sent.map (·.2.1))) := by
    intro bs hi
    have hf := hi.1 0
    have hs := mSent_as hf.sent
    exact ⟨hs.1, fun hk => ⟨hs.2 hk, List.pairwise_map.2 (hf.apart hk)⟩⟩
  refine ⟨os, fin, h1, ?_⟩
  rcases h2 with ⟨e1, e2, bs, hi⟩ | ⟨stack', pats', bs, e1, e2, -, -, hi⟩
  · exact ⟨(key bs hi).1, (key bs hi).2, by simp [e1, e2]⟩
  · exact ⟨(key bs hi).1, (key bs hi).2, by simp [e1, e2]⟩

/-- There are such executions. -/
theorem C160_can_run (D : List Id → Heap → Heap → Prop) (keep : Bool) (pats : List (List (Stage Event))) (evs : List Event)
    (h : Heap) : ∃ s r, SendersRun D pats.length keep (newDepths pats) evs (.new h) s r :=
  sendersRun_exists D pats.length keep evs _ _

/-- What goes to one sink. -/
theorem sentAs_to {f : Nat × Id × Heap → Heap} (k : Nat) : ∀ {ps xs}, SentAs f ps xs →
    AllRep (fun p => f (k, p)) ((ps.filter fun p => p.1 == k).map (·.2)) ((xs.filter fun x => x.1 == k).map (·.2))
  | [], [], _ => trivial
  | ⟨i, p⟩ :: ps, x :: xs, h => by
    obtain ⟨h1, h2, h3⟩ := h
    have ih := sentAs_to k h3
    simp only at h1
    by_cases e : x.1 = k
    · have e' : i = k := by rw [h1, e]
      subst e'
      simpa [e, AllRep] using ⟨h2, ih⟩
    · have e' : ¬ i = k := by rw [h1]; exact e
      simpa [e, e'] using ih
  | [], _ :: _, h => h.elim
  | _ :: _, [], h => h.elim

/-- C160 for a document: with the collector alone, at the end sink `k` has, as whole objects without a parent, exactly the
elements that sink is sent, and nothing is shared between what any of the sinks have. -/
theorem C160_document {e : Node} {w : Str} (hdoc : IsDoc e w) (pats : List (List (Stage Event)))
    (hall : ∀ p ∈ pats, Callable p) (h : Heap) {s r}
    (hr : SendersRun Collected pats.length true (newDepths pats) (drive w).1 (.new h) s r) : r ≠ none ∧
      NothingShared s.heap (s.sent.map (·.2.1)) ∧
      ∀ k st, GoesBy pats k st → ∃ os,
        AllRep (fun _ => s.heap) ((s.sent.filter fun p => p.1 == k).map (·.2)) os.flatten ∧
        Delivers (fun q => ∃ t, e.opened [] q = some t ∧ ReachesFirst st (stretched pats.length k t) ∧
          ∀ t', t' <+: t → t' ≠ t → ¬ ReachesFirst st (stretched pats.length k t')) (e.marks [] []) os := by
  obtain ⟨os, h1, -, h3⟩ := C35_what_each_sink_gets_exactly e pats hall
  rw [drive_doc hdoc] at hr
  obtain ⟨os', fin, e1, -, e2, e3⟩ := C160_several_patterns harmless_collected true pats _ h hr
  rw [h1] at e1
  cases e1
  refine ⟨fun hn => ?_, (e2 rfl).2, fun k st hk => ⟨os.map (sentTo k), ?_, h3 k st hk⟩⟩
  · cases e3.1 hn
  · rw [sentTo_flatten, sentTo_sentBy]
    exact sentAs_to k (e2 rfl).1

/-! ### C161 -/

theorem last_cases {α} {l : List α} {x : α} (h : l.getLast? = some x) : ∃ ys, l = ys ++ [x] :=
  List.getLast?_eq_some_iff.1 h

/-- C161.  What a sender with several patterns keeps alive after any events: for each pattern the nodes of the subtree being
built, or between subtrees the nodes of the last one sent to its sink, and possibly one text. -/
theorem C161_what_is_kept {D : List Id → Heap → Heap → Prop} (hD : ∀ roots h h', D roots h h' →
      h.next ≤ h'.next ∧ ∀ i, Reachable h roots i → h'.obj i = h.obj i)
    (keep : Bool) (pats : List (List (Stage Event))) (evs : List Event) (h : Heap) {s c}
    (hr : SendersRun D pats.length keep (newDepths pats) evs (.new h) s (some c)) :
    ∃ os stack pats', (newSender pats).run (quiet evs) = (os, some ⟨stack, pats'⟩) ∧ ∃ sizes : List Nat,
      sizes.length = pats.length ∧ AtMost s.heap (s.refs pats.length false) (sizes.sum + 1) ∧
      ∀ j m, sizes[j]? = some m → ∃ st b, pats'[j]? = some (st, b) ∧
        ((b.depth > 0 ∧ m = openCount b.open_) ∨ (b.depth = 0 ∧ (os.map (sentTo j)).flatten = [] ∧ m = 0) ∨
          (b.depth = 0 ∧ ∃ ys x, (os.map (sentTo j)).flatten = ys ++ [x] ∧ m = x.count)) := by
  obtain ⟨os, fin, h1, h2⟩ := senders_run (D := D) hD hr
  rcases h2 with ⟨e1, -⟩ | ⟨stack', pats', bs, e1, e2, hh, hl, hi⟩
  · cases e1
  · subst e2
    refine ⟨os, stack', pats', h1, _, by simp, inv_size hi, fun j m hm => ?_⟩
    simp only [List.getElem?_map, Option.map_eq_some_iff] at hm
    obtain ⟨a, ha, hm⟩ := hm
    obtain ⟨hj, rfl⟩ : j < pats.length ∧ j = a := by
      rw [List.getElem?_eq_some_iff] at ha
      obtain ⟨hj, ha⟩ := ha
      simp only [List.getElem_range] at ha
      exact ⟨by simpa using hj, ha⟩
    have hj' : j < pats'.length := by omega
    have hb := hh j pats'[j] (List.getElem?_eq_getElem hj')
    rw [Nat.zero_add] at hb
    refine ⟨pats'[j].1, pats'[j].2, List.getElem?_eq_getElem hj', ?_⟩
    obtain ⟨-, hd, hcase⟩ := inv_cell hi j
    rw [lastTo_sentTo] at hm hcase
    rw [← hb]
    rcases hcase with ⟨ho, -⟩ | ⟨ho, -, ⟨-, hlast⟩ | ⟨x, hlast, -⟩⟩
    · exact .inl ⟨by rw [hd]; exact List.length_pos_iff.2 ho, by rw [← hm]; simp [cellSize, ho]⟩
    · exact .inr (.inl ⟨by rw [hd, ho]; rfl, List.getLast?_eq_none_iff.1 hlast, by rw [← hm]; simp [cellSize, ho, hlast]⟩)
    · obtain ⟨ys, e⟩ := last_cases hlast
      exact .inr (.inr ⟨by rw [hd, ho]; rfl, ys, x, e, by rw [← hm]; simp only [cellSize, ho, if_true, hlast]; rfl⟩)

/-- A pattern in the middle of a subtree goes on with it or sends it. -/
theorem handleOne_open {st : List (Stage Event)} {ix : Nat} {mv : Option Id} {stack : List Event} {b : Building} {ev : Event}
    {o stack' b'} (he : handleOne st ix mv stack b ev = (o, some (stack', b'))) (hd : b.depth = b.open_.length)
    (ho : b.open_ ≠ []) : (b'.depth = b'.open_.length ∧ b'.open_ ≠ [] ∧ openCount b.open_ ≤ openCount b'.open_) ∨
      ∃ x ∈ sentTo ix o, openCount b.open_ ≤ x.count := by
  have hpos : b.depth > 0 := by rw [hd]; exact List.length_pos_iff.2 ho
  obtain ⟨⟨m, as, ts⟩, fs, hb⟩ : ∃ f fs, b.open_ = f :: fs := by
    cases h : b.open_ with
    | nil => exact absurd h ho
    | cons f fs => exact ⟨f, fs, rfl⟩
  cases ev with
  | start n as' anc =>
    simp only [handleOne, hpos, if_true, Prod.mk.injEq, Option.some.injEq] at he
    obtain ⟨-, -, rfl⟩ := he
    refine .inl ⟨by simp [Building.push, hd], by simp [Building.push], ?_⟩
    simp only [Building.push, openCount, Node.countList]
    omega
  | chars t =>
    simp only [handleOne, hpos, if_true, Prod.mk.injEq, Option.some.injEq] at he
    obtain ⟨-, -, rfl⟩ := he
    refine .inl ⟨by simp [addChild, hb, hd], by simp [addChild, hb], ?_⟩
    simp only
    rw [openCount_addChild _ _ ho]
    omega
  | stop n anc =>
    by_cases hs : stack = []
    · simp [handleOne, hs] at he
    · cases fs with
      | nil =>
        have hz1 : b.depth = 0 + 1 := by rw [hd, hb]; rfl
        simp only [handleOne, hs, if_false, hz1, hb, if_true, Prod.mk.injEq] at he
        refine .inr ⟨.elem m as ts, ?_, by simp [hb, openCount, Node.count]⟩
        rw [← he.1]
        simp [sentTo]
      | cons g fs =>
        have hz1 : b.depth = (fs.length + 1) + 1 := by rw [hd, hb]; rfl
        simp only [handleOne, hs, if_false, hz1, hb, Nat.succ_ne_zero, Prod.mk.injEq, Option.some.injEq] at he
        obtain ⟨-, -, rfl⟩ := he
        obtain ⟨g1, g2, g3⟩ := g
        refine .inl ⟨by simp [addChild], by simp [addChild], ?_⟩
        simp only
        rw [openCount_addChild _ _ (by simp), hb]
        simp only [openCount, Node.count]
        omega

theorem handlePats_open {mv : Nat → Option Id} {ev : Event} : ∀ {r : List (List (Stage Event) × Building)} {ix : Nat} {stack o stack' r'},
    handlePats mv ev ix stack r = (o, some (stack', r')) → ∀ {k st b}, r[k]? = some (st, b) → b.depth = b.open_.length →
    b.open_ ≠ [] → ∃ b', r'[k]? = some (st, b') ∧
      ((b'.depth = b'.open_.length ∧ b'.open_ ≠ [] ∧ openCount b.open_ ≤ openCount b'.open_) ∨
        ∃ x ∈ sentTo (ix + k) o, openCount b.open_ ≤ x.count) := by
  intro r
  induction r with
  | nil => intro ix stack o stack' r' _ k st b hk; cases hk
  | cons p r ih =>
    intro ix stack o stack' r' he k st b hk hd ho
    obtain ⟨st₀, b₀⟩ := p
    simp only [handlePats] at he
    cases h1 : handleOne st₀ ix (mv ix) stack b₀ ev with
    | mk o₁ res =>
      rw [h1] at he
      cases res with
      | none => simp at he
      | some y =>
        obtain ⟨stack₁, b₁⟩ := y
        simp only at he
        cases h2 : handlePats mv ev (ix + 1) stack₁ r with
        | mk o₂ res =>
          rw [h2] at he
          cases res with
          | none => simp at he
          | some z =>
            obtain ⟨stack₂, r₂⟩ := z
            simp only [Prod.mk.injEq, Option.some.injEq] at he
            obtain ⟨rfl, -, rfl⟩ := he
            cases k with
            | zero =>
              simp only [List.getElem?_cons_zero, Option.some.injEq, Prod.mk.injEq] at hk
              obtain ⟨rfl, rfl⟩ := hk
              refine ⟨b₁, rfl, (handleOne_open h1 hd ho).imp id ?_⟩
              rintro ⟨x, hx, hle⟩
              exact ⟨x, by rw [Nat.add_zero]; simp only [sentTo, List.filterMap_append, List.mem_append]; exact .inl hx, hle⟩
            | succ k =>
              obtain ⟨b', hb', hc⟩ := ih h2 (k := k) (by simpa using hk) hd ho
              refine ⟨b', by simpa using hb', hc.imp id ?_⟩
              rintro ⟨x, hx, hle⟩
              refine ⟨x, ?_, hle⟩
              rw [show ix + 1 + k = ix + (k + 1) by omega] at hx
              simp only [sentTo, List.filterMap_append, List.mem_append] at hx ⊢
              exact .inr hx

theorem run_open : ∀ (evs : List Event) {pats : List (List (Stage Event) × Building)} {stack os stack' pats'},
    (Sender.mk stack pats).run (quiet evs) = (os, some ⟨stack', pats'⟩) → (∀ p ∈ pats', p.2.depth = 0) →
    ∀ {k st b}, pats[k]? = some (st, b) → b.depth = b.open_.length → b.open_ ≠ [] →
    ∃ x ∈ (os.map (sentTo k)).flatten, openCount b.open_ ≤ x.count := by
  intro evs
  induction evs with
  | nil =>
    intro pats stack os stack' pats' hr hz k st b hk hd ho
    simp only [quiet, List.map_nil, Sender.run, Prod.mk.injEq, Option.some.injEq, Sender.mk.injEq] at hr
    obtain ⟨-, -, rfl⟩ := hr
    have := hz _ (List.mem_of_getElem? hk)
    rw [hd] at this
    exact absurd (List.length_eq_zero_iff.1 this) ho
  | cons ev evs ih =>
    intro pats stack os stack' pats' hr hz k st b hk hd ho
    simp only [quiet, List.map_cons, Sender.run, Sender.handle] at hr
    cases h1 : handlePats (fun _ => none) ev 0 stack pats with
    | mk o res =>
      rw [h1] at hr
      cases res with
      | none => simp at hr
      | some y =>
        obtain ⟨stack₁, pats₁⟩ := y
        simp only [Prod.mk.injEq] at hr
        obtain ⟨rfl, hr⟩ := hr
        obtain ⟨b', hb', hc⟩ := handlePats_open h1 hk hd ho
        rw [Nat.zero_add] at hc
        simp only [List.map_cons, List.flatten_cons, List.mem_append]
        rcases hc with ⟨c1, c2, c3⟩ | ⟨x, hx, hle⟩
        · obtain ⟨x, hx, hle⟩ := ih (Prod.ext rfl hr) hz hb' c1 c2
          exact ⟨x, .inr hx, Nat.le_trans c3 hle⟩
        · exact ⟨x, .inl hx, hle⟩

theorem sum_bound (m : Nat) : ∀ l : List Nat, (∀ x ∈ l, x ≤ m) → l.sum ≤ l.length * m
  | [], _ => by simp
  | x :: l, h => by
    have h1 := sum_bound m l fun y hy => h y (by simp [hy])
    have h2 := h x (by simp)
    simp only [List.sum_cons, List.length_cons, Nat.succ_mul]
    omega

/-- C161.  Hence a bound that does not depend on how long the input is or how many matches there are: if each of the trees that
are sent to the sinks has at most `m` nodes, at no point between two events does the sender keep alive more than `m` objects
for each pattern and one more. -/
theorem C161_memory_bound {D : List Id → Heap → Heap → Prop} (hD : ∀ roots h h', D roots h h' →
      h.next ≤ h'.next ∧ ∀ i, Reachable h roots i → h'.obj i = h.obj i)
    (keep : Bool) (pats : List (List (Stage Event))) (evs rest : List Event) (h : Heap) {os last m}
    (hall : (newSender pats).run (quiet (evs ++ rest)) = (os, some last)) (hb : ∀ p ∈ last.pats, p.2.depth = 0)
    (hm : ∀ k x, x ∈ (os.map (sentTo k)).flatten → x.count ≤ m) {s r}
    (hr : SendersRun D pats.length keep (newDepths pats) evs (.new h) s r) :
    AtMost s.heap (s.refs pats.length false) (pats.length * m + 1) := by
  obtain ⟨os₁, fin, h1, h2⟩ := senders_run (D := D) hD hr
  rw [srun_append, h1] at hall
  rcases h2 with ⟨-, e2, -⟩ | ⟨stack', pats', bs, -, e2, hh, hl, hi⟩
  · rw [e2] at hall
    cases hall
  · rw [e2] at hall
    simp only [Prod.mk.injEq] at hall
    refine atMost_mono (inv_size hi) (Nat.succ_le_succ ?_)
    refine Nat.le_trans (sum_bound m _ fun y hy => ?_) (by simp)
    obtain ⟨j, hj, rfl⟩ := List.mem_map.1 hy
    have hj' : j < pats'.length := by have := List.mem_range.1 hj; omega
    have hbj := hh j pats'[j] (List.getElem?_eq_getElem hj')
    rw [Nat.zero_add] at hbj
    obtain ⟨-, hd, hcase⟩ := inv_cell hi j
    by_cases ho : (bs j).open_ = []
    · simp only [cellSize, ho, if_true]
      cases hlast : lastTo j (sentBy os₁.flatten) with
      | none => simp
      | some x =>
        rw [lastTo_sentTo] at hlast
        refine hm j x ?_
        rw [← hall.1]
        simp only [List.map_append, List.flatten_append, List.mem_append]
        exact .inl (List.mem_of_getLast? hlast)
    · simp only [cellSize, ho, if_false]
      obtain ⟨last₁, last₂⟩ := last
      obtain ⟨x, hx, hle⟩ := run_open rest (Prod.ext rfl hall.2) hb (k := j) (st := pats'[j].1) (b := bs j)
        (by rw [hbj]; exact List.getElem?_eq_getElem hj') hd ho
      refine Nat.le_trans hle (hm j x ?_)
      rw [← hall.1]
      simp only [List.map_append, List.flatten_append, List.mem_append]
      exact .inr hx

/-- C161 for a document: `m` need only bound the elements the sinks are sent. -/
theorem C161_document (e : Node) (pats : List (List (Stage Event))) (hc : ∀ p ∈ pats, Callable p) {m : Nat}
    (hm : ∀ k x, x ∈ (((newSender pats).run (quiet (e.events []))).1.map (sentTo k)).flatten → x.count ≤ m)
    {evs rest : List Event} (he : e.events [] = evs ++ rest) (keep : Bool) (h : Heap) {s r}
    (hr : SendersRun Collected pats.length keep (newDepths pats) evs (.new h) s r) :
    AtMost s.heap (s.refs pats.length false) (pats.length * m + 1) := by
  obtain ⟨os, h1, -, -⟩ := C35_what_each_sink_gets_exactly e pats hc
  rw [h1] at hm
  rw [he] at h1
  refine C161_memory_bound harmless_collected keep pats evs rest h h1 (fun p hp => ?_) hm hr
  simp only [newSender, List.mem_map] at hp
  obtain ⟨st, -, rfl⟩ := hp
  rfl

/-- Both `('**', 'c')` and `('**', 'b')`: the second pattern goes on with the first, so it stands for `('**', 'b', '**', 'c')`.
On `<a><b>x<c><c/></c></b><c/></a>` the inner `c` goes to both sinks, the other one to the first: three trees, five objects. -/
def twoPatterns : List (List (Stage Event)) := [[.dstar, .name ['c']], [.dstar, .name ['b']]]

def nestedMatches : Node := .elem ['a'] [] [.elem ['b'] [] [.text ['x'], .elem ['c'] [] [.elem ['c'] [] []]], .elem ['c'] [] []]

theorem nested_sent : sentBy ((newSender twoPatterns).run (quiet (nestedMatches.events []))).1.flatten =
    [(0, .elem ['c'] [] [.elem ['c'] [] []]), (1, .elem ['c'] [] [.elem ['c'] [] []]), (0, .elem ['c'] [] [])] := by
  decide +kernel

theorem two_callable : ∀ p ∈ twoPatterns, Callable p := by
  simp [twoPatterns, Callable]

example (h : Heap) : ∃ s r, SendersRun Collected 2 true (newDepths twoPatterns) (nestedMatches.events []) (.new h) s r ∧
    SentAs (fun _ => s.heap) s.sent [(0, .elem ['c'] [] [.elem ['c'] [] []]), (1, .elem ['c'] [] [.elem ['c'] [] []]),
      (0, .elem ['c'] [] [])] ∧ NothingShared s.heap (s.sent.map (·.2.1)) := by
  obtain ⟨s, r, hr⟩ := C160_can_run Collected true twoPatterns (nestedMatches.events []) h
  obtain ⟨os, fin, h1, -, h2, -⟩ := C160_several_patterns harmless_collected true _ _ h hr
  have := nested_sent
  rw [h1] at this
  refine ⟨s, r, hr, ?_⟩
  rw [← this]
  exact h2 rfl

example (h : Heap) (evs rest : List Event) (he : nestedMatches.events [] = evs ++ rest) : ∃ s r,
    SendersRun Collected 2 false (newDepths twoPatterns) evs (.new h) s r ∧ AtMost s.heap (s.refs 2 false) 5 := by
  obtain ⟨s, r, hr⟩ := C160_can_run Collected false twoPatterns evs h
  refine ⟨s, r, hr, C161_document nestedMatches twoPatterns two_callable (m := 2) (fun k x hx => ?_) he false h hr⟩
  rw [sentTo_flatten, sentTo_sentBy, nested_sent] at hx
  obtain ⟨y, hy, rfl⟩ := List.mem_map.1 hx
  have := (List.mem_filter.1 hy).1
  simp only [List.mem_cons, List.not_mem_nil, or_false] at this
  rcases this with rfl | rfl | rfl <;> decide

end Amara
