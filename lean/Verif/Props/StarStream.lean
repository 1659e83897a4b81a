import Verif.Spec.StarStream
import Verif.Props.Selectors
import Verif.Props.Filter
/-
C176: patterns of names and '*' for streams, and the queries for the same thing.
-/
namespace Amara

variable {F : Type}

/-! ### the pattern -/

theorem stage_ok {g : Head} (h : g.Ok) : stageOf g.word = (match g with | .all => .star | .named m => .name m) := by
  cases g with
  | all => rfl
  | named m => exact stageOf_testName h

theorem stage_not_dstar {g : Head} (h : g.Ok) : stageOf g.word ≠ .dstar := by
  rw [stage_ok h]
  cases g <;> simp

theorem heads_safe {hs : List Head} (h : ∀ g ∈ hs, g.Ok) : Safe (stringPattern (hs.map Head.word)) := by
  induction hs with
  | nil => trivial
  | cons g hs ih =>
    have h1 := ih fun k hk => h k (by simp [hk])
    rw [List.map_cons, stringPattern, List.map_cons, stage_ok (h g (by simp))]
    cases g with
    | all => rw [Safe]; exact h1; simp
    | named m => rw [Safe]; exact h1; simp

theorem lays_heads : ∀ {hs : List Head} (_ : ∀ g ∈ hs, g.Ok) {t : List Event},
    Lays Event.look (stringPattern (hs.map Head.word)) t ↔ t.length = hs.length ∧
      ∀ (i : Nat) ev g, t[i]? = some ev → hs[i]? = some g → (stageOf g.word).Accepts Event.look ev := by
  intro hs
  induction hs with
  | nil =>
    intro _ t
    rw [List.map_nil, stringPattern, List.map_nil, lays_nil_iff]
    constructor
    · rintro rfl; exact ⟨rfl, fun i ev m h => by simp at h⟩
    · rintro ⟨h, _⟩; exact List.length_eq_zero_iff.1 h
  | cons g hs ih =>
    intro hm t
    rw [List.map_cons, stringPattern, List.map_cons, lays_single_iff (stage_not_dstar (hm g (by simp)))]
    constructor
    · rintro ⟨x, xs, rfl, h1, h2⟩
      obtain ⟨h3, h4⟩ := (ih fun k hk => hm k (by simp [hk])).1 h2
      refine ⟨by simp [h3], fun i ev k hi hk => ?_⟩
      match i with
      | 0 =>
        simp only [List.getElem?_cons_zero, Option.some.injEq] at hi hk
        subst hi; subst hk
        exact h1
      | i + 1 =>
        simp only [List.getElem?_cons_succ] at hi hk
        exact h4 i ev k hi hk
    · rintro ⟨h1, h2⟩
      cases t with
      | nil => simp at h1
      | cons x xs =>
        refine ⟨x, xs, rfl, h2 0 x g rfl rfl, (ih fun k hk => hm k (by simp [hk])).2 ⟨by simpa using h1, fun i ev k hi hk => ?_⟩⟩
        exact h2 (i + 1) ev k (by simpa using hi) (by simpa using hk)

theorem accepts_fits {d : Node} {p : Path} {n : Str} {as : Attrs} {cs : List Node} (hp : d.at? p = some (.elem n as cs)) {ev : Event}
    (hev : Event.look ev = some n) {g : Head} (hg : g.Ok) : (stageOf g.word).Accepts Event.look ev ↔ g.Fits d p := by
  rw [stage_ok hg]
  cases g with
  | all => exact ⟨fun _ => ⟨n, as, cs, hp⟩, fun _ => ⟨n, hev⟩⟩
  | named m =>
    simp only [Stage.Accepts, Head.Fits, Node.Named, hev, hp]
    constructor
    · intro h
      cases h
      exact ⟨as, cs, rfl⟩
    · rintro ⟨as', cs', h⟩
      cases h
      rfl

/-- The pattern fits the elements the stages ask for, and no such element is in another. -/
theorem outermost_heads {d : Node} {q : Path} {t : List Event} (h : d.opened [] q = some t) {hs : List Head} (hm : ∀ g ∈ hs, g.Ok) :
    Outermost Event.look (stringPattern (hs.map Head.word)) t ↔ d.Fit hs q := by
  obtain ⟨hl, hn⟩ := opened_names h
  have hlay : Lays Event.look (stringPattern (hs.map Head.word)) t ↔ d.Fit hs q := by
    rw [lays_heads hm, Node.Fit, hl]
    refine and_congr_right fun hlen => ?_
    constructor
    · intro h1 i g hi
      have hlt : i < t.length := by
        rw [hl, hlen]; exact (List.getElem?_eq_some_iff.1 hi).1
      obtain ⟨y, n, as, cs, e1, e2, e3⟩ := hn i t[i] (List.getElem?_eq_getElem hlt)
      exact (accepts_fits (e2 ▸ e1) e3 (hm g (List.mem_of_getElem? hi))).1 (h1 i t[i] g (List.getElem?_eq_getElem hlt) hi)
    · intro h1 i ev g hi hg
      obtain ⟨y, n, as, cs, e1, e2, e3⟩ := hn i ev hi
      exact (accepts_fits (e2 ▸ e1) e3 (hm g (List.mem_of_getElem? hg))).2 (h1 i g hg)
  rw [Outermost, hlay]
  constructor
  · exact fun h => h.1
  · intro hf
    refine ⟨hf, fun ys hy hne hys => hne ?_⟩
    obtain ⟨z, rfl⟩ := hy
    have h1 := ((lays_heads hm).1 hys).1
    have h2 := hf.1
    rw [List.length_append] at hl
    have : z = [] := List.length_eq_zero_iff.1 (by omega)
    rw [this, List.append_nil]

theorem fits_elem {d : Node} {g : Head} {p : Path} (h : g.Fits d p) : d.ElemAt p := by
  cases g with
  | all => exact h
  | named m =>
    obtain ⟨as, cs, h⟩ := h
    exact ⟨m, as, cs, h⟩

theorem fit_elem {d : Node} {h : Head} {hs : List Head} {q : Path} (hf : d.Fit (h :: hs) q) : d.ElemAt q := by
  obtain ⟨h1, h2⟩ := hf
  have h3 := h2 q.length ((h :: hs)[q.length]'(by omega)) (List.getElem?_eq_getElem (by omega))
  rw [List.take_length] at h3
  exact fits_elem h3

theorem fit_isText {d : Node} {h : Head} {hs : List Head} {q : Path} {x : Node} (hx : d.at? q = some x) (hf : d.Fit (h :: hs) q) : x.isText = false := by
  obtain ⟨m, as, cs, h1⟩ := fit_elem hf
  rw [hx] at h1
  cases h1
  rfl

/-- The records of a pattern of names and `'*'`. -/
theorem records_fit {d : Node} {h : Head} {hs : List Head} (hm : ∀ g ∈ h :: hs, g.Ok) {l : List (Path × Node)}
    (hl : ∀ q x, (q, x) ∈ l ↔ d.at? q = some x ∧ x.isText = false ∧
      ∃ t, d.opened [] q = some t ∧ Outermost Event.look (stringPattern ((h :: hs).map Head.word)) t) (q : Path) (x : Node) :
    (q, x) ∈ l ↔ d.at? q = some x ∧ d.Fit (h :: hs) q := by
  rw [hl q x]
  constructor
  · rintro ⟨h1, _, t, h3, h4⟩
    exact ⟨h1, (outermost_heads h3 hm).1 h4⟩
  · rintro ⟨h1, h2⟩
    have ht := fit_isText h1 h2
    cases x with
    | text s => cases ht
    | elem m as cs =>
      obtain ⟨t, h3⟩ := opened_exists (anc := []) h1
      exact ⟨h1, rfl, t, h3, (outermost_heads h3 hm).2 h2⟩

/-! ### the query -/

theorem fit_snoc {d : Node} {hs : List Head} (hne : hs ≠ []) {g : Head} {q : Path} :
    d.Fit (hs ++ [g]) q ↔ ∃ p, d.Fit hs p ∧ ∃ i, q = p ++ [i] ∧ g.Fits d q := by
  have hpos : 0 < hs.length := List.length_pos_iff.2 hne
  constructor
  · rintro ⟨h1, h2⟩
    rw [List.length_append, List.length_singleton] at h1
    have hq : q ≠ [] := by rintro rfl; rw [List.length_nil] at h1; omega
    obtain ⟨p, i, rfl⟩ : ∃ p i, q = p ++ [i] := ⟨q.dropLast, q.getLast hq, (List.dropLast_concat_getLast hq).symm⟩
    rw [List.length_append, List.length_singleton] at h1
    refine ⟨p, ⟨by omega, fun j k hj => ?_⟩, i, rfl, ?_⟩
    · have hlt : j < hs.length := (List.getElem?_eq_some_iff.1 hj).1
      have := h2 j k (by rw [List.getElem?_append_left hlt]; exact hj)
      rwa [List.take_append_of_le_length (by omega)] at this
    · have := h2 hs.length g (by simp)
      rwa [List.take_of_length_le (by simp; omega)] at this
  · rintro ⟨p, ⟨h1, h2⟩, i, rfl, h3⟩
    refine ⟨by simp [h1], fun j k hj => ?_⟩
    rcases Nat.lt_or_ge j hs.length with hlt | hge
    · rw [List.getElem?_append_left hlt] at hj
      rw [List.take_append_of_le_length (by omega)]
      exact h2 j k hj
    · rw [List.getElem?_append_right hge] at hj
      have : j - hs.length = 0 := by
        have := (List.getElem?_eq_some_iff.1 hj).1
        simp at this; omega
      rw [this] at hj
      simp at hj
      subst hj
      rw [List.take_of_length_le (by simp; omega)]
      exact h3

theorem kids_mem {d : Node} {p : Path} (hp : d.ElemAt p) {g : Head} {w : Path} : w ∈ kids d p g ↔ ∃ i, w = p ++ [i] ∧ g.Fits d w := by
  obtain ⟨m, as, cs, h⟩ := hp
  simp only [kids, h, Node.xmlChildren, List.mem_map]
  have key : ∀ i, i ∈ idxFrom g.sel 0 cs ↔ g.Fits d (p ++ [i]) := by
    intro i
    rw [idxFrom_mem]
    have := head_sel_iff (d := d) (p := p ++ [i]) (h := g)
    rw [child_at h] at this
    cases g <;> simpa [Head.Fits] using this
  constructor
  · rintro ⟨i, h1, rfl⟩; exact ⟨i, rfl, (key i).1 h1⟩
  · rintro ⟨i, rfl, h1⟩; exact ⟨i, (key i).2 h1, rfl⟩

theorem kids_lt (d : Node) (p : Path) (g : Head) : (kids d p g).Pairwise docLt := by
  unfold kids
  split
  · rw [List.pairwise_map]
    exact (idxFrom_lt _ _ _).imp fun {i j} hij => docLt_snoc p hij
  · exact .nil

theorem head_root (d : Node) (h : Head) : ∃ qs : List Path, h.path.Gives d .root (qs.map .at) ∧ (∀ q, q ∈ qs ↔ d.Fit [h] q) ∧ qs.Pairwise docLt := by
  have key : ∀ q, d.Fit [h] q ↔ q = [] ∧ h.Fits d q := by
    intro q
    constructor
    · rintro ⟨h1, h2⟩
      have : q = [] := List.length_eq_zero_iff.1 (by simpa using h1)
      subst this
      exact ⟨rfl, h2 0 h rfl⟩
    · rintro ⟨rfl, h1⟩
      refine ⟨rfl, fun i g hi => ?_⟩
      have : i = 0 := by
        have := (List.getElem?_eq_some_iff.1 hi).1
        simp at this; omega
      subst this
      cases hi
      exact h1
  obtain ⟨qs, h1, h2⟩ : ∃ qs : List Path, (∀ q, q ∈ qs ↔ q = [] ∧ h.Fits d q) ∧ qs.length ≤ 1 := by
    by_cases hf : h.Fits d []
    · exact ⟨[[]], fun q => by simp only [List.mem_singleton]; exact ⟨fun e => ⟨e, e ▸ hf⟩, fun e => e.1⟩, by simp⟩
    · exact ⟨[], fun q => ⟨fun e => by simp at e, fun e => absurd (e.1 ▸ e.2) hf⟩, by simp⟩
  have hpw : ∀ R : Path → Path → Prop, qs.Pairwise R := by
    intro R
    match qs, h2 with
    | [], _ => exact .nil
    | [a], _ => exact List.pairwise_singleton R a
    | _ :: _ :: _, h2 => simp at h2
  refine ⟨qs, ?_, fun q => (h1 q).trans (key q).symm, hpw _⟩
  cases h with
  | all => exact ⟨qs, rfl, hpw _, h1⟩
  | named m => exact ⟨qs, rfl, hpw _, h1⟩

theorem pattern_root (d : Node) (h : Head) (hs : List Head) : ∃ qs : List Path, (patternPath h hs).Gives d .root (qs.map .at) ∧
    (∀ q, q ∈ qs ↔ d.Fit (h :: hs) q) ∧ qs.Pairwise docLt := by
  induction hs using list_snoc_induct with
  | h0 => exact head_root d h
  | h1 hs g ih =>
    obtain ⟨qs, a1, a2, a3⟩ := ih
    have he : ∀ p ∈ qs, d.ElemAt p := fun p hp => fit_elem ((a2 p).1 hp)
    have hlen : ∀ p ∈ qs, p.length = hs.length := fun p hp => by
      have := ((a2 p).1 hp).1
      simpa using this
    refine ⟨qs.flatMap fun p => kids d p g, ?_, fun q => ?_, ?_⟩
    · rw [pattern_snoc]
      exact ⟨_, a1, inTurn_places _ fun p hp => kids_give (he p hp) g⟩
    · rw [List.mem_flatMap, ← List.cons_append, fit_snoc (by simp)]
      constructor
      · rintro ⟨p, h1, h2⟩; exact ⟨p, (a2 p).1 h1, (kids_mem (he p h1)).1 h2⟩
      · rintro ⟨p, h1, h2⟩; exact ⟨p, (a2 p).2 h1, (kids_mem (fit_elem h1)).2 h2⟩
    · rw [List.pairwise_flatMap]
      refine ⟨fun p _ => kids_lt d p g, (List.Pairwise.and_mem.1 a3).imp ?_⟩
      rintro p p' ⟨h1, h2, h3⟩ x hx y hy
      obtain ⟨i, rfl, _⟩ := (kids_mem (he p h1)).1 hx
      obtain ⟨j, rfl, _⟩ := (kids_mem (he p' h2)).1 hy
      exact docLt_snoc2 (by rw [hlen p h1, hlen p' h2]) h3

theorem pattern_records {d : Node} {h : Head} {hs : List Head} {recs : List (Path × Node)} (ho : InDocOrder recs)
    (hr : ∀ q x, (q, x) ∈ recs ↔ d.at? q = some x ∧ d.Fit (h :: hs) q) : (patternPath h hs).Gives d .root (recs.map fun r => .at r.1) := by
  obtain ⟨qs, h1, h2, h4⟩ := pattern_root d h hs
  have hq : qs = recs.map Prod.fst := by
    refine docOrder_same h4 (List.pairwise_map.2 ho) fun q => ?_
    rw [h2 q, List.mem_map]
    constructor
    · intro hq
      obtain ⟨m, as, cs, hm⟩ := fit_elem hq
      exact ⟨(q, .elem m as cs), (hr _ _).2 ⟨hm, hq⟩, rfl⟩
    · rintro ⟨⟨q', x⟩, hm, rfl⟩
      exact ((hr _ _).1 hm).2
  rw [hq, List.map_map] at h1
  exact h1

theorem pattern_whole (fo : FloatOps F) (vars : Str → Option (Item F)) (k : Nat) {d : Node} (hd : d.NoEmptyText) (hdict : d.Dicts) {h : Head}
    {hs : List Head} {recs : List (Path × Node)} (ho : InDocOrder recs)
    (hr : ∀ q x, (q, x) ∈ recs ↔ d.at? q = some x ∧ d.Fit (h :: hs) q) {s : Str} (hw : X.Written fo (patternTokens h hs) s) :
    xmlXPath fo vars k d [] (.str s) = ⟨recs.map fun r => .node r.1, .done⟩ := by
  have hparse := C167_is_read fo (.path (.core (.rel (pattern_writes h hs)))) hw
  have h1 := (C166_exactly (queryEnv fo vars d) hd hdict k (l := .path (.core (patternPath h hs))) (pattern_ok h hs) (u := .root) trivial _).2
    ⟨_, ⟨_, pattern_records ho hr, rfl⟩, rfl⟩
  simp only [xmlXPath, parseText_eq hparse, contextItem, if_true]
  rw [List.map_map, List.map_map] at h1
  exact h1

/-! ### the streams -/

/-- C176: feed a document to a tree sender with a pattern `(h, g₁, …, gₖ)` of names and `'*'`.  The records are the elements that the stages
ask for, one level for each stage, in document order, and they are just what the query `h/g₁/…/gₖ` on the whole document finds. -/
theorem C176_records_are_the_query (fo : FloatOps F) (vars : Str → Option (Item F)) (k : Nat) {d : Node} {w : Str} (hdoc : IsDoc d w) {h : Head}
    {hs : List Head} (hm : ∀ g ∈ h :: hs, g.Ok) :
    let p := stringPattern ((h :: hs).map Head.word)
    ∃ os recs, (newSender [p]).parse w = (os, some (newSender [p])) ∧ (os.map (sentTo 0)).flatten = recs.map Prod.snd ∧ InDocOrder recs ∧
      (∀ q x, (q, x) ∈ recs ↔ d.at? q = some x ∧ d.Fit (h :: hs) q) ∧
      ∀ s, X.Written fo (patternTokens h hs) s → ∀ a, QQuery fo vars k (.str w) (.str s) a ↔
        a = .items d ⟨recs.map fun r => .node r.1, .done⟩ := by
  intro p
  obtain ⟨os, recs, a1, a2, a3, a4⟩ := C33_all_sent_partial hdoc p (by simp [p, stringPattern]) (heads_safe hm)
  refine ⟨os, recs, a1, a2, a3, records_fit hm a4, fun s hs a => ?_⟩
  rw [(C85_ways_to_ask_partial fo vars k _).2.2 d w a hdoc,
    pattern_whole fo vars k (doc_noEmpty hdoc) (fun p m as cs hp => doc_dicts hdoc hp) a3 (records_fit hm a4) hs]

/-- C176: the same for full XML, fed in pieces to an `xmliter.sender`; the tree `d` is the one all the callbacks of expat stand for. -/
theorem C176_xml_records_are_the_query (fo : FloatOps F) (vars : Str → Option (Item F)) (k : Nat) {d : Node} (hd : d.isText = false)
    (hne : d.NoEmptyText) (hdict : d.Dicts) {pieces : List (List XCall)} (hr : Reports pieces.flatten (d.events [])) {h : Head}
    {hs : List Head} (hm : ∀ g ∈ h :: hs, g.Ok) (self : Id) :
    let calls := (newXSender [stringPattern ((h :: hs).map Head.word)]).feeds takesAll self .new (goodCalls pieces)
    (∀ c ∈ calls.1, c.2 = false) ∧ ∃ recs, calls.2.1.got 0 = recs.map Prod.snd ∧ InDocOrder recs ∧
      (∀ q x, (q, x) ∈ recs ↔ d.at? q = some x ∧ d.Fit (h :: hs) q) ∧
      ∀ s, X.Written fo (patternTokens h hs) s → xmlXPath fo vars k d [] (.str s) = ⟨recs.map fun r => .node r.1, .done⟩ := by
  obtain ⟨l, a1, a2, a3⟩ := C145_records hd hr (p := stringPattern ((h :: hs).map Head.word)) (by simp [stringPattern]) (heads_safe hm) self [] []
  obtain ⟨b1, l1, _, b3, _, b5, _⟩ := a3 pieces [] (by simp)
  have := b3 rfl
  subst this
  exact ⟨b1, l1, b5, a1, records_fit hm a2, fun s hs => pattern_whole fo vars k hne hdict a1 (records_fit hm a2) hs⟩

/-- C176: ask each record of such a stream `*/l`.  Asking a record gives what `l` finds from its element in the whole document; and, unless
`l` has a number in brackets that counts, the query `h/g₁/…/gₖ/l` on the whole document gives just that, for one record after the other. -/
theorem C176_stream_and_tree (fo : FloatOps F) (vars : Str → Option (Item F)) (k : Nat) {d : Node} {w : Str} (hdoc : IsDoc d w) {h : Head}
    {hs : List Head} (hm : ∀ g ∈ h :: hs, g.Ok) {l : TestedList} (hl : l.Ok) (hdn : l.down = true) {b : Bool} {wl : List (X.Tok F)}
    (hwl : WritesTestedList b wl l) :
    let p := stringPattern ((h :: hs).map Head.word)
    ∃ os recs, (newSender [p]).parse w = (os, some (newSender [p])) ∧ (os.map (sentTo 0)).flatten = recs.map Prod.snd ∧ InDocOrder recs ∧
      (∀ q x, (q, x) ∈ recs ↔ d.at? q = some x ∧ d.Fit (h :: hs) q) ∧
      (∀ s, X.Written fo (.star :: .pathSep :: wl) s → ∀ q x, (q, x) ∈ recs →
        ∃ fs : List Found, xmlXPath fo vars k x [] (.str s) = ⟨fs.map Found.item, .done⟩ ∧ l.Gives d (.at q) (fs.map (Found.moved q)) ∧
          ∀ ls, x.LinesOf fs ls ↔ d.LinesOf (fs.map (Found.moved q)) ls) ∧
      (l.countsNothing = true → ∀ s, X.Written fo (patternTokens h hs ++ .pathSep :: wl) s →
        ∃ fs : List Found, InTurn (l.Gives d) (recs.map fun r => .at r.1) fs ∧
          ∀ a, QQuery fo vars k (.str w) (.str s) a ↔ a = .items d ⟨fs.map Found.item, .done⟩) := by
  intro p
  obtain ⟨os, recs, a1, a2, a3, a4⟩ := C33_all_sent_partial hdoc p (by simp [p, stringPattern]) (heads_safe hm)
  have hr := records_fit hm a4
  obtain ⟨b1, b2⟩ := stream_tests_of fo vars k (doc_noEmpty hdoc) (fun p m as cs hp => doc_dicts hdoc hp) (pattern_ok h hs)
    (pattern_writes h hs) (pattern_records a3 hr) (fun q x hq => ⟨((hr q x).1 hq).1, fit_isText ((hr q x).1 hq).1 ((hr q x).1 hq).2⟩) hl hdn hwl
  refine ⟨os, recs, a1, a2, a3, hr, b1, fun hc s hs => ?_⟩
  obtain ⟨fs, c1, c2⟩ := b2 hc s hs
  refine ⟨fs, c1, fun a => ?_⟩
  rw [(C85_ways_to_ask_partial fo vars k _).2.2 d w a hdoc, c2]

/-- C176: let a sink write the records that pass `*[t]…`, where the tests look down.  Asking never raises; the records written are the
elements that the stages ask for and of which the tests hold in the document, in document order; they are what the query
`h/g₁/…/gₖ[t]…` on the whole document finds; and the output is that much text. -/
theorem C176_filtered_stream (fo : FloatOps F) (vars : Str → Option (Item F)) (k : Nat) {d : Node} {w : Str} (hdoc : IsDoc d w) {h : Head}
    {hs : List Head} (hm : ∀ g ∈ h :: hs, g.Ok) {ts : Tests} (ht : ts.Ok) (hdn : ts.down = true) {wt : List (X.Tok F)}
    (hw : WritesTests wt ts) {s : Str} (hs' : X.Written fo (.star :: wt) s) (prefixes : List (Str × Str)) (wrapper : Str) :
    let p := stringPattern ((h :: hs).map Head.word)
    ∃ os kept, (newSender [p]).parse w = (os, some (newSender [p])) ∧
      (∀ x ∈ (os.map (sentTo 0)).flatten, (xmlXPath fo vars k x [] (.str s)).tail = .done) ∧
      InDocOrder kept ∧ (∀ q x, (q, x) ∈ kept ↔ d.at? q = some x ∧ d.Fit (h :: hs) q ∧ ts.Hold d (.at q)) ∧
      writtenAtEnd prefixes wrapper ((os.map (sentTo 0)).flatten.filter (passes fo vars k s)) =
        some ('<' :: (wrapper ++ (declarations prefixes ++ '>' ::
          ((kept.flatMap fun r => r.2.encode) ++ '<' :: '/' :: (wrapper ++ ['>']))))) ∧
      ∀ s', X.Written fo (patternTokens h hs ++ wt) s' → ∀ a, QQuery fo vars k (.str w) (.str s') a ↔
        a = .items d ⟨kept.map fun r => .node r.1, .done⟩ := by
  intro p
  obtain ⟨os, recs, a1, a2, a3, a4⟩ := C33_all_sent_partial hdoc p (by simp [p, stringPattern]) (heads_safe hm)
  have hr := records_fit hm a4
  have hel : ∀ q x, (q, x) ∈ recs → d.at? q = some x ∧ x.isText = false :=
    fun q x hq => ⟨((hr q x).1 hq).1, fit_isText ((hr q x).1 hq).1 ((hr q x).1 hq).2⟩
  obtain ⟨b1, kept, b2, b3, b4, b5⟩ := filter_records_of fo vars k (doc_noEmpty hdoc) (fun p m as cs hp => doc_dicts hdoc hp) (pattern_ok h hs)
    (pattern_writes h hs) a3 (pattern_records a3 hr) hel ht hdn hw hs'
  rw [← a2] at b1 b4
  refine ⟨os, kept, a1, b1, b2, fun q x => by rw [b3, hr q x, and_assoc], ?_, fun s' hs' a => ?_⟩
  · rw [b4, (C145_written prefixes wrapper _ ?_).2, List.flatMap_map]
    intro x hx
    obtain ⟨r, hk, rfl⟩ := List.mem_map.1 hx
    exact (hel r.1 r.2 ((b3 r).1 hk).1).2
  · rw [(C85_ways_to_ask_partial fo vars k _).2.2 d w a hdoc, b5 s' hs']

-- the pattern `('*', 'r', '*')` is as the theorems want it
example : (∀ g ∈ [Head.all, .named ['r'], .all], g.Ok) ∧
    stringPattern ([Head.all, .named ['r'], .all].map Head.word) = [.star, .name ['r'], .star] ∧
    (patternTokens .all [.named ['r'], .all] : List (X.Tok F)) = [.star, .pathSep, .name ['r'], .pathSep, .star] ∧
    exRecords.Fit [.all, .named ['r'], .all] [3, 1] := by
  refine ⟨?_, rfl, rfl, rfl, ?_⟩
  · intro g hg
    simp only [List.mem_cons, List.not_mem_nil] at hg
    rcases hg with rfl | rfl | rfl | hg
    · trivial
    · exact ⟨'r', [], rfl, by unfold NameStartCode; decide, by simp, by decide⟩
    · trivial
    · cases hg
  · intro i g hi
    match i with
    | 0 => cases hi; exact ⟨_, _, _, rfl⟩
    | 1 => cases hi; exact ⟨_, _, rfl⟩
    | 2 => cases hi; exact ⟨_, _, _, rfl⟩
    | i + 3 => simp at hi

-- the records of `('*', 'r', '*')` and what `*/r/*` finds
example : (((newSender [stringPattern [['*'], ['r'], ['*']]]).parse "<d><r><n>x</n></r>-<q><n></n></q><r><n>y</n><m></m></r></d>".toList).1.map
      (sentTo 0)).flatten = [.elem ['n'] [] [.text ['x']], .elem ['n'] [] [.text ['y']], .elem ['m'] [] []] ∧
    xmlXPath noFloats (fun _ => none) 0 (.elem ['d'] [] [.elem ['r'] [] [.elem ['n'] [] [.text ['x']]], .text ['-'],
        .elem ['q'] [] [.elem ['n'] [] []], .elem ['r'] [] [.elem ['n'] [] [.text ['y']], .elem ['m'] [] []]]) [] (.str "*/r/*".toList) =
      ⟨[.node [0, 0], .node [3, 0], .node [3, 1]], .done⟩ := by
  have h1 : X.xparse noFloats "*/r/*".toList = some (.ok (TestedList.path (.core (patternPath .all [.named ['r'], .all]))).expr) := by
    with_unfolding_all rfl
  rw [asked_parsed h1]
  refine ⟨by decide +kernel, by decide +kernel⟩

/-- C176 needs one level for each stage: with `'**'` only the outermost elements are records, so the pattern `('**', 'r')` sends one element
of a document in which `//r` finds two. -/
theorem C176_two_stars_send_less :
    (((newSender [stringPattern [['*', '*'], ['r']]]).parse "<d><r><r></r></r></d>".toList).1.map (sentTo 0)).flatten =
      [.elem ['r'] [] [.elem ['r'] [] []]] ∧
    X.xparse noFloats "//r".toList = some (.ok (.absAll (.step .child (.name ['r'])))) ∧
    xmlXPath noFloats (fun _ => none) 0 (.elem ['d'] [] [.elem ['r'] [] [.elem ['r'] [] []]]) [] (.str "//r".toList) =
      ⟨[.node [0], .node [0, 0]], .done⟩ := by
  have h1 : X.xparse noFloats "//r".toList = some (.ok (.absAll (.step .child (.name ['r'])))) := by with_unfolding_all rfl
  rw [asked_parsed h1]
  exact ⟨by decide +kernel, h1, by decide +kernel⟩

/-- C176: what the pattern `('**', m)` does send: of the elements `//m` finds those that are in no other of them, in document order. -/
theorem C176_two_stars_send_the_outermost (fo : FloatOps F) (vars : Str → Option (Item F)) (k : Nat) {d : Node} {w : Str} (hdoc : IsDoc d w) {m : Str}
    (hm : IsTestName m) :
    let p := stringPattern [['*', '*'], m]
    ∃ (os : List (List SOut)) (recs : List (Path × Node)) (found : List Path), (newSender [p]).parse w = (os, some (newSender [p])) ∧ (os.map (sentTo 0)).flatten = recs.map Prod.snd ∧
      OutermostNamed d m recs ∧ (∀ q, q ∈ found ↔ d.Named m q) ∧
      (∀ q x, (q, x) ∈ recs ↔ d.at? q = some x ∧ q ∈ found ∧ ∀ q' i r, q = q' ++ i :: r → q' ∉ found) ∧
      ∀ s, X.Written fo [.abbrevSep, X.nameTok m] s → ∀ a, QQuery fo vars k (.str w) (.str s) a ↔ a = .items d ⟨found.map .node, .done⟩ := by
  intro p
  have hp : p = [.dstar, .name m] := by
    show [stageOf ['*', '*'], stageOf m] = _
    rw [stageOf_testName hm]
    rfl
  obtain ⟨os, recs, a1, a2, a3, a4⟩ := C33_all_sent_partial hdoc p (by simp [hp]) (by simp [hp, Safe, SafeAfter, SafeRest])
  have hmem : ∀ q x, (q, x) ∈ recs ↔ d.at? q = some x ∧ d.Named m q ∧ ∀ q' i r, q = q' ++ i :: r → ¬ d.Named m q' := by
    intro q x
    rw [a4, hp]
    constructor
    · rintro ⟨b1, _, t, b2, b3⟩
      exact ⟨b1, (outermost_partition b2 m).1 b3⟩
    · rintro ⟨b1, ⟨as, cs, b2⟩, b3⟩
      obtain ⟨t, ht⟩ := opened_exists (anc := []) b2
      refine ⟨b1, ?_, t, ht, (outermost_partition ht m).2 ⟨⟨as, cs, b2⟩, b3⟩⟩
      rw [b1] at b2
      cases b2
      rfl
  obtain ⟨found, c1, _, c3⟩ := C48_every_element_once (queryEnv fo vars d) (doc_noEmpty hdoc) k .root (.inl rfl) m
  refine ⟨os, recs, found, a1, a2, ⟨a3, hmem⟩, c3, fun q x => ?_, fun s hs a => ?_⟩
  · rw [hmem]
    simp only [c3]
    exact Iff.rfl
  · have hparse : X.xparse fo s = some (.ok (TestedList.path (.core (.anywhere (.step .child m)))).expr) := by
      have h := nameTok_word (F := F) m
      have hp := WritesPath.anywhere (.step (.child h.1))
      rw [h.2] at hp
      exact C167_is_read fo (.path (.core hp)) hs
    rw [(C85_ways_to_ask_partial fo vars k _).2.2 d w a hdoc]
    simp only [xmlXPath, parseText_eq hparse, contextItem, if_true]
    have c1 : (queryEnv fo vars d).run k (TestedList.path (.core (.anywhere (.step .child m)))).expr .root = ⟨found.map .node, .done⟩ := c1
    rw [c1]

end Amara
