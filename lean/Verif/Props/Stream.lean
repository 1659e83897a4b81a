import Verif.Spec.Stream
import Verif.Props.Down
import Verif.Props.Pipe
import Verif.Props.MicroxRun
import Verif.Props.Rewrite
import Verif.Lemmas.Bones
/-
C159: a query along names over a whole document, and the rest of the query asked of each record of a stream.
-/
namespace Amara

variable {F : Type}

/-! ### the records of a pattern of names -/

theorem stageOf_testName {m : Str} (h : IsTestName m) : stageOf m = .name m := by
  obtain ⟨c, r, rfl, hc, _, _⟩ := h
  have h1 : c ≠ '*' := by rintro rfl; revert hc; unfold NameStartCode; decide
  unfold stageOf
  rw [if_neg (by intro h; injection h with h _; exact h1 h), if_neg (by intro h; injection h with h _; exact h1 h)]

theorem lays_strings : ∀ {names : List Str} (_ : ∀ m ∈ names, IsTestName m) {t : List Event},
    Lays Event.look (stringPattern names) t ↔ t.length = names.length ∧
      ∀ (i : Nat) ev m, t[i]? = some ev → names[i]? = some m → Event.look ev = some m := by
  intro names
  induction names with
  | nil =>
    intro _ t
    rw [stringPattern, List.map_nil, lays_nil_iff]
    constructor
    · rintro rfl; exact ⟨rfl, fun i ev m h => by simp at h⟩
    · rintro ⟨h, _⟩; exact List.length_eq_zero_iff.1 h
  | cons m names ih =>
    intro hm t
    rw [stringPattern, List.map_cons, stageOf_testName (hm m (by simp)), lays_single_iff (by simp)]
    constructor
    · rintro ⟨x, xs, rfl, h1, h2⟩
      obtain ⟨h3, h4⟩ := (ih fun k hk => hm k (by simp [hk])).1 h2
      refine ⟨by simp [h3], fun i ev k hi hk => ?_⟩
      match i with
      | 0 =>
        simp only [List.getElem?_cons_zero, Option.some.injEq] at hi hk
        subst hi; subst hk
        exact h1
      | i + 1 =>
        simp only [List.getElem?_cons_succ] at hi hk
        exact h4 i ev k hi hk
    · rintro ⟨h1, h2⟩
      cases t with
      | nil => simp at h1
      | cons x xs =>
        refine ⟨x, xs, rfl, h2 0 x m rfl rfl, (ih fun k hk => hm k (by simp [hk])).2 ⟨by simpa using h1, fun i ev k hi hk => ?_⟩⟩
        exact h2 (i + 1) ev k (by simpa using hi) (by simpa using hk)

/-- The pattern of names fits the elements along the names, and no such element is in another. -/
theorem outermost_strings {d : Node} {q : Path} {t : List Event} (h : d.opened [] q = some t) {n : Str} {ms : List Str}
    (hm : ∀ m ∈ n :: ms, IsTestName m) :
    Outermost Event.look (stringPattern (n :: ms)) t ↔ d.Named n [] ∧ d.Along [] ms q := by
  obtain ⟨hl, hn⟩ := opened_names h
  have hmin : ∀ ys, ys <+: t → ys ≠ t → t.length = (n :: ms).length → ¬ Lays Event.look (stringPattern (n :: ms)) ys := by
    intro ys hy hne hlen hlay
    obtain ⟨z, rfl⟩ := hy
    have h1 := ((lays_strings hm).1 hlay).1
    apply hne
    rw [List.length_append] at hlen
    have : z = [] := List.length_eq_zero_iff.1 (by omega)
    rw [this, List.append_nil]
  constructor
  · rintro ⟨ho, _⟩
    obtain ⟨h1, h2⟩ := (lays_strings hm).1 ho
    have key : ∀ i m, (n :: ms)[i]? = some m → d.Named m (q.take i) := by
      intro i m hi
      have hlt : i < t.length := by
        rw [h1]; exact (List.getElem?_eq_some_iff.1 hi).1
      obtain ⟨y, m', as, cs, e1, e2, e3⟩ := hn i t[i] (List.getElem?_eq_getElem hlt)
      have := h2 i t[i] m (List.getElem?_eq_getElem hlt) hi
      rw [e3] at this
      injection this with this
      subst this
      exact ⟨as, cs, by rw [e1, e2]⟩
    refine ⟨key 0 n rfl, q, by simp, by simp at h1; omega, fun i m hi => ?_⟩
    exact key (i + 1) m (by simpa using hi)
  · rintro ⟨hn0, r, hr, hlen, hal⟩
    simp only [List.nil_append] at hr hal
    subst hr
    have hlen' : t.length = (n :: ms).length := by rw [hl, hlen]; rfl
    refine ⟨(lays_strings hm).2 ⟨hlen', fun i ev m hi hm' => ?_⟩, fun ys hy hne => hmin ys hy hne hlen'⟩
    obtain ⟨y, m', as, cs, e1, e2, e3⟩ := hn i ev hi
    have : d.Named m (q.take i) := by
      match i with
      | 0 =>
        simp only [List.getElem?_cons_zero, Option.some.injEq] at hm'
        subst hm'
        exact hn0
      | i + 1 => exact hal i m (by simpa using hm')
    obtain ⟨as', cs', e4⟩ := this
    rw [e1, e2] at e4
    injection e4 with e4
    injection e4 with e4 _ _
    rw [e3, e4]

/-- Two lists in document order with the same members are the same. -/
theorem docOrder_same : ∀ {a b : List Path}, a.Pairwise docLt → b.Pairwise docLt → (∀ q, q ∈ a ↔ q ∈ b) → a = b := by
  intro a
  induction a with
  | nil =>
    intro b _ _ h
    cases b with
    | nil => rfl
    | cons y b => exact absurd ((h y).2 (by simp)) (by simp)
  | cons x a ih =>
    intro b ha hb h
    cases b with
    | nil => exact absurd ((h x).1 (by simp)) (by simp)
    | cons y b =>
      rw [List.pairwise_cons] at ha hb
      have hxy : x = y := by
        rcases List.mem_cons.1 ((h x).1 (by simp)) with h1 | h1
        · exact h1
        · rcases List.mem_cons.1 ((h y).2 (by simp)) with h2 | h2
          · exact h2.symm
          · exact (docLt_asymm (ha.1 y h2) (hb.1 x h1)).elim
      subst hxy
      congr 1
      refine ih ha.2 hb.2 fun q => ?_
      have hq := h q
      simp only [List.mem_cons] at hq
      constructor
      · intro hqa
        rcases hq.1 (.inr hqa) with rfl | h1
        · exact (docLt_irrefl _ (ha.1 _ hqa)).elim
        · exact h1
      · intro hqb
        rcases hq.2 (.inr hqb) with rfl | h1
        · exact (docLt_irrefl _ (hb.1 _ hqb)).elim
        · exact h1

/-! ### the whole and the records -/

theorem bindList_inTurn (f : Item F → Res F) (g : Path × Node → Res F) : ∀ (l : List (Path × Node)),
    (∀ r ∈ l, f (.node r.1) = g r) → Res.bindList f .done ((l.map Prod.fst).map .node) = inTurn g l := by
  intro l
  induction l with
  | nil => intro _; rfl
  | cons r l ih =>
    intro h
    simp only [List.map_cons, Res.bindList]
    rw [h r (by simp), inTurn, ih fun r' hr' => h r' (by simp [hr'])]
    rcases hg : g r with ⟨xs, t⟩
    cases t <;> rfl

theorem whole_is_records (fo : FloatOps F) (vars : Str → Option (Item F)) (k : Nat) {d : Node} (hd : d.NoEmptyText) {n : Str} {ms : List Str}
    {e : Expr F} (he : (queryEnv fo vars d).LooksDown e) {l : List (Path × Node)} (ho : InDocOrder l)
    (hl : ∀ q x, (q, x) ∈ l ↔ d.at? q = some x ∧ x.isText = false ∧ d.Named n [] ∧ d.Along [] ms q) :
    (queryEnv fo vars d).run k (.slash (nameExpr n ms) e) .root =
      inTurn (fun r => (xmlXPath fo vars k r.2 [] (.parsed (.slash (.step .child .star) e))).moved r.1) l := by
  obtain ⟨qs, h1, h2, h3, h4⟩ := names_from_root (queryEnv fo vars d) hd k n ms
  have hq : qs = l.map Prod.fst := by
    refine docOrder_same h4 (List.pairwise_map.2 ho) fun q => ?_
    rw [h2 q, List.mem_map]
    constructor
    · intro hq
      obtain ⟨⟨m, as, cs, hm⟩, _⟩ := h3 q ((h2 q).2 hq)
      exact ⟨(q, .elem m as cs), (hl _ _).2 ⟨hm, rfl, hq⟩, rfl⟩
    · rintro ⟨⟨q', x⟩, hr, rfl⟩
      exact ((hl _ _).1 hr).2.2
  rw [run_slash, show (queryEnv fo vars d).run k (nameExpr n ms) .root = _ from h1, Res.bind, hq]
  refine bindList_inTurn _ _ l fun r hr => ?_
  obtain ⟨q, x⟩ := r
  obtain ⟨hx, ht, _⟩ := (hl q x).1 hr
  have a := C152_only_the_element_counts (queryEnv fo vars d) hx he k (x := .node []) (by intro h; cases h)
  simp only [Item.moved, List.append_nil] at a
  rw [orElse_truthy (show (queryEnv fo vars d).Truthy (.node q) from truthy_node fo hd q)]
  simp only [xmlXPath, contextItem, if_true]
  rw [star_at_root fo vars k ht]
  exact a

theorem along_isElem {d : Node} {n : Str} {ms : List Str} {q : Path} {x : Node} (hx : d.at? q = some x) (h1 : d.Named n [])
    (h2 : d.Along [] ms q) : x.isText = false := by
  obtain ⟨r, hr, hlen, hal⟩ := h2
  simp only [List.nil_append] at hr hal
  subst hr
  have : ∃ m, d.Named m q := by
    cases ms with
    | nil =>
      have : q = [] := List.length_eq_zero_iff.1 (by simpa using hlen)
      exact ⟨n, this ▸ h1⟩
    | cons m ms =>
      have h3 := hal ms.length ((m :: ms)[ms.length]'(by simp)) (List.getElem?_eq_getElem (by simp))
      rw [List.take_of_length_le (by simp at hlen; omega)] at h3
      exact ⟨_, h3⟩
  obtain ⟨m, as, cs, hm⟩ := this
  rw [hx] at hm
  injection hm with hm
  rw [hm]
  rfl

/-- The records of a pattern of names: the elements along the names. -/
theorem records_along {d : Node} {n : Str} {ms : List Str} (hm : ∀ m ∈ n :: ms, IsTestName m) {l : List (Path × Node)}
    (hl : ∀ q x, (q, x) ∈ l ↔ d.at? q = some x ∧ x.isText = false ∧
      ∃ t, d.opened [] q = some t ∧ Outermost Event.look (stringPattern (n :: ms)) t) (q : Path) (x : Node) :
    (q, x) ∈ l ↔ d.at? q = some x ∧ d.Named n [] ∧ d.Along [] ms q := by
  rw [hl q x]
  constructor
  · rintro ⟨h1, _, t, h3, h4⟩
    exact ⟨h1, (outermost_strings h3 hm).1 h4⟩
  · rintro ⟨h1, h2⟩
    have ht := along_isElem h1 h2.1 h2.2
    cases x with
    | text s => cases ht
    | elem m as cs =>
      obtain ⟨t, h3⟩ := opened_exists (anc := []) h1
      exact ⟨h1, rfl, t, h3, (outermost_strings h3 hm).2 h2⟩

theorem stringPattern_safe {names : List Str} (hm : ∀ m ∈ names, IsTestName m) : Safe (stringPattern names) := by
  induction names with
  | nil => trivial
  | cons m names ih =>
    rw [stringPattern, List.map_cons, stageOf_testName (hm m (by simp)), Safe]
    · exact ih fun k hk => hm k (by simp [hk])
    · intro h; cases h

/-- The query on the whole tree and the queries on the records, in terms of their texts. -/
theorem texts_whole_is_records (fo : FloatOps F) (vars : Str → Option (Item F)) (k : Nat) {d : Node} (hd : d.NoEmptyText) {n : Str} {ms : List Str}
    {e : Expr F} (he : (queryEnv fo vars d).LooksDown e) {l : List (Path × Node)} (ho : InDocOrder l)
    (hl : ∀ q x, (q, x) ∈ l ↔ d.at? q = some x ∧ d.Named n [] ∧ d.Along [] ms q) {s s' : Str} {e1 e2 : Expr F}
    (h1 : X.xparse fo s = some (.ok e1)) (h1' : Rewrites e1 (.slash (nameExpr n ms) e))
    (h2 : X.xparse fo s' = some (.ok e2)) (h2' : Rewrites e2 (.slash (.step .child .star) e)) :
    xmlXPath fo vars k d [] (.str s) = inTurn (fun r => (xmlXPath fo vars k r.2 [] (.str s')).moved r.1) l := by
  have hw := whole_is_records fo vars k hd (n := n) (ms := ms) he ho fun q x => by
    rw [hl q x]
    exact ⟨fun h => ⟨h.1, along_isElem h.1 h.2.1 h.2.2, h.2⟩, fun h => ⟨h.1, h.2.2⟩⟩
  have hroot : ∀ d' : Node, (queryEnv fo vars d').Truthy .root := fun _ => rfl
  have hrec : ∀ x : Node, xmlXPath fo vars k x [] (.str s') = xmlXPath fo vars k x [] (.parsed (.slash (.step .child .star) e)) := by
    intro x
    simp only [xmlXPath, parseText_eq h2, contextItem, if_true]
    exact C142_rewriting_is_sound (queryEnv fo vars x) h2' k .root (hroot x)
  rw [show (fun r : Path × Node => (xmlXPath fo vars k r.2 [] (.str s')).moved r.1) =
    fun r => (xmlXPath fo vars k r.2 [] (.parsed (.slash (.step .child .star) e))).moved r.1 from funext fun r => by rw [hrec], ← hw]
  simp only [xmlXPath, parseText_eq h1, contextItem, if_true]
  exact C142_rewriting_is_sound (queryEnv fo vars d) h1' k .root (hroot d)

/-- C159: feed a document to a tree sender with the pattern `(n, m₁, …, mₖ)` and ask each record `*/e`, where `e` only looks down; or
ask the whole document `n/m₁/…/mₖ/e`.  The records are the elements along the names, in document order, and the one query yields what
the many yield in turn, as items of the whole document, up to the first exception.  (The two texts may be written in any way that the
laws of paths, C142, turn into these.) -/
theorem C159_stream_and_tree (fo : FloatOps F) (vars : Str → Option (Item F)) (k : Nat) {d : Node} {w : Str} (h : IsDoc d w) {n : Str}
    {ms : List Str} (hm : ∀ m ∈ n :: ms, IsTestName m) :
    ∃ os l, (newSender [stringPattern (n :: ms)]).parse w = (os, some (newSender [stringPattern (n :: ms)])) ∧
      (os.map (sentTo 0)).flatten = l.map Prod.snd ∧ InDocOrder l ∧
      (∀ q x, (q, x) ∈ l ↔ d.at? q = some x ∧ d.Named n [] ∧ d.Along [] ms q) ∧
      ∀ (e e1 e2 : Expr F) (s s' : Str), (queryEnv fo vars d).LooksDown e →
        X.xparse fo s = some (.ok e1) → Rewrites e1 (.slash (nameExpr n ms) e) →
        X.xparse fo s' = some (.ok e2) → Rewrites e2 (.slash (.step .child .star) e) →
        ∀ a, QQuery fo vars k (.str w) (.str s) a ↔
          a = .items d (inTurn (fun r => (xmlXPath fo vars k r.2 [] (.str s')).moved r.1) l) := by
  obtain ⟨os, l, a1, a2, a3, a4⟩ := C33_all_sent_partial h (stringPattern (n :: ms)) (by simp [stringPattern]) (stringPattern_safe hm)
  refine ⟨os, l, a1, a2, a3, records_along hm a4, fun e e1 e2 s s' he h1 h1' h2 h2' a => ?_⟩
  rw [(C85_ways_to_ask_partial fo vars k _).2.2 d w a h,
    texts_whole_is_records fo vars k (doc_noEmpty h) he a3 (records_along hm a4) h1 h1' h2 h2']

/-- C159: the same for full XML.  The stream is fed in pieces to an `xmliter.sender`, whose sink keeps what it is sent; the tree `d` is
the one all the callbacks of expat stand for. -/
theorem C159_xml_stream_and_tree (fo : FloatOps F) (vars : Str → Option (Item F)) (k : Nat) {d : Node} (hd : d.isText = false)
    (hne : d.NoEmptyText) {pieces : List (List XCall)} (hr : Reports pieces.flatten (d.events [])) {n : Str} {ms : List Str}
    (hm : ∀ m ∈ n :: ms, IsTestName m) (self : Id) :
    let calls := (newXSender [stringPattern (n :: ms)]).feeds takesAll self .new (goodCalls pieces)
    (∀ c ∈ calls.1, c.2 = false) ∧ ∃ l, calls.2.1.got 0 = l.map Prod.snd ∧ InDocOrder l ∧
      (∀ q x, (q, x) ∈ l ↔ d.at? q = some x ∧ d.Named n [] ∧ d.Along [] ms q) ∧
      ∀ (e e1 e2 : Expr F) (s s' : Str), (queryEnv fo vars d).LooksDown e →
        X.xparse fo s = some (.ok e1) → Rewrites e1 (.slash (nameExpr n ms) e) →
        X.xparse fo s' = some (.ok e2) → Rewrites e2 (.slash (.step .child .star) e) →
        xmlXPath fo vars k d [] (.str s) = inTurn (fun r => (xmlXPath fo vars k r.2 [] (.str s')).moved r.1) l := by
  obtain ⟨l, a1, a2, a3⟩ := C145_records hd hr (p := stringPattern (n :: ms)) (by simp [stringPattern]) (stringPattern_safe hm) self [] []
  obtain ⟨b1, l1, _, b3, _, b5, _⟩ := a3 pieces [] (by simp)
  have := b3 rfl
  subst this
  exact ⟨b1, l1, b5, a1, records_along hm a2, fun e e1 e2 s s' he h1 h1' h2 h2' =>
    texts_whole_is_records fo vars k hne he a1 (records_along hm a2) h1 h1' h2 h2'⟩

theorem inTurn_map {β : Type} {f : Path × Node → Res F} (g : Item F → β) (g' : Node → Item F → β) (f' : Node → Res F) :
    ∀ {l : List (Path × Node)}, (∀ r ∈ l, f r = (f' r.2).moved r.1 ∧ ∀ y, g (y.moved r.1) = g' r.2 y) →
    (∀ r ∈ l, (f' r.2).tail = .done) →
    (inTurn f l).tail = .done ∧ (inTurn f l).items.map g = l.flatMap fun r => (f' r.2).items.map (g' r.2) := by
  intro l
  induction l with
  | nil => intro _ _; exact ⟨rfl, rfl⟩
  | cons r l ih =>
    intro h1 h2
    obtain ⟨a, b⟩ := ih (fun r' hr' => h1 r' (by simp [hr'])) (fun r' hr' => h2 r' (by simp [hr']))
    obtain ⟨c1, c2⟩ := h1 r (by simp)
    have hd := h2 r (by simp)
    rcases hf : f' r.2 with ⟨xs, t⟩
    rw [hf] at c1 hd
    simp only at hd
    subst hd
    simp only [Res.moved] at c1
    rw [inTurn, c1]
    refine ⟨a, ?_⟩
    simp only [List.map_append, List.flatMap_cons, b, hf]
    congr 1
    rw [List.map_map]
    exact List.map_congr_left fun y _ => c2 y

/-- C159: so what the items say is the same: if no query on a record raises, neither does the query on the whole document, and the string
values, the names and the serialisations of its items are those of the items of the records, in turn. -/
theorem C159_same_values (fo : FloatOps F) (vars : Str → Option (Item F)) {d : Node} {l : List (Path × Node)}
    (hl : ∀ r ∈ l, d.at? r.1 = some r.2) (f : Node → Res F) (hf : ∀ r ∈ l, (f r.2).tail = .done) :
    let whole := inTurn (fun r => (f r.2).moved r.1) l
    whole.tail = .done ∧
    whole.items.map (queryEnv fo vars d).strVal = l.flatMap (fun r => (f r.2).items.map (queryEnv fo vars r.2).strVal) ∧
    whole.items.map (·.nameOf d) = l.flatMap (fun r => (f r.2).items.map (·.nameOf r.2)) ∧
    whole.items.map (·.xmlEncode d) = l.flatMap (fun r => (f r.2).items.map (·.xmlEncode r.2)) := by
  intro whole
  have hv : ∀ r ∈ l, ∀ y : Item F, _ := fun r hr y => C152_moved_items (queryEnv fo vars d) (hl r hr) y
  have a := inTurn_map (f := fun r => (f r.2).moved r.1) (queryEnv fo vars d).strVal (fun x => (queryEnv fo vars x).strVal) f
    (fun r hr => ⟨rfl, fun y => (hv r hr y).1⟩) hf
  have b := inTurn_map (f := fun r => (f r.2).moved r.1) (·.nameOf d) (fun x y => y.nameOf x) f
    (fun r hr => ⟨rfl, fun y => (hv r hr y).2.1⟩) hf
  have c := inTurn_map (f := fun r => (f r.2).moved r.1) (·.xmlEncode d) (fun x y => y.xmlEncode x) f
    (fun r hr => ⟨rfl, fun y => (hv r hr y).2.2.2⟩) hf
  exact ⟨a.1, a.2, b.2, c.2⟩

/-! ### examples -/

-- `a/b` on `<a><b></b></a>`, and `*` on each record of the pattern `('a', 'b')`
example (a : Answer NoF) : ∃ os l, (newSender [stringPattern [['a'], ['b']]]).parse "<a><b></b></a>".toList =
      (os, some (newSender [stringPattern [['a'], ['b']]])) ∧
    (os.map (sentTo 0)).flatten = l.map Prod.snd ∧
    (QQuery noFloats (fun _ => none) 0 (.str "<a><b></b></a>".toList) (.str "a/b".toList) a ↔
      a = .items (.elem ['a'] [] [.elem ['b'] [] []])
        (inTurn (fun r => (xmlXPath noFloats (fun _ => none) 0 r.2 [] (.str "*".toList)).moved r.1) l)) := by
  obtain ⟨os, l, h1, h2, _, _, h5⟩ := C159_stream_and_tree noFloats (fun _ => none) 0 exQuery_doc (n := ['a']) (ms := [['b']])
    (by
      intro m hm
      rcases (by simpa using hm : m = ['a'] ∨ m = ['b']) with rfl | rfl
      · exact ⟨'a', [], rfl, by unfold NameStartCode; decide, (fun _ h => by cases h), by decide⟩
      · exact ⟨'b', [], rfl, by unfold NameStartCode; decide, (fun _ h => by cases h), by decide⟩)
  have p1 : X.xparse noFloats "a/b".toList = some (.ok (.slash (.step .child (.name ['a'])) (.step .child (.name ['b'])))) := by
    with_unfolding_all rfl
  have p2 : X.xparse noFloats "*".toList = some (.ok (.step .child .star)) := by with_unfolding_all rfl
  exact ⟨os, l, h1, h2, h5 .dot _ _ _ _ .dot p1 (.symm (.pathDot (.slash (.step _ _)))) p2 (.symm (.pathDot (.step _ _))) a⟩

-- the document of the example for C145, whose callbacks are given there, meets the hypotheses of the version for XML
example : exStream.isText = false ∧ exStream.NoEmptyText ∧ IsTestName ['w'] ∧ IsTestName ['r'] :=
  ⟨rfl, noEmptyText_of (by decide) (by decide), ⟨'w', [], rfl, by unfold NameStartCode; decide, (fun _ h => by cases h), by decide⟩,
    ⟨'r', [], rfl, by unfold NameStartCode; decide, (fun _ h => by cases h), by decide⟩⟩

-- three records, of which one has no `n` and one has two: `d/r/n/text()` is `*/n/text()` on each
def exRecords : Node := .elem ['d'] [] [.elem ['r'] [] [.elem ['n'] [] [.text ['x']]], .text ['-'], .elem ['r'] [] [],
  .elem ['r'] [] [.elem ['n'] [] [.text ['y']], .elem ['n'] [] [.text ['z']]]]

example : let e : Expr NoF := .slash (.step .child (.name ['n'])) (.step .child .text)
    xmlXPath noFloats (fun _ => none) 0 exRecords [] (.parsed (.slash (nameExpr ['d'] [['r']]) e)) =
    inTurn (fun r => (xmlXPath noFloats (fun _ => none) 0 r.2 [] (.parsed (.slash (.step .child .star) e))).moved r.1)
      [([0], .elem ['r'] [] [.elem ['n'] [] [.text ['x']]]), ([2], .elem ['r'] [] []),
       ([3], .elem ['r'] [] [.elem ['n'] [] [.text ['y']], .elem ['n'] [] [.text ['z']]])] ∧
    (xmlXPath noFloats (fun _ => none) 0 exRecords [] (.parsed (.slash (nameExpr ['d'] [['r']]) e))).items =
      [.node [0, 0, 0], .node [3, 0, 0], .node [3, 1, 0]] := by
  decide +kernel

-- the parsed queries of that example are as the theorem wants them
example : X.xparse noFloats "d/r/n/text()".toList =
      some (.ok (.slash (.slash (nameExpr ['d'] [['r']]) (.step .child (.name ['n']))) (.step .child .text))) ∧
    Rewrites (F := NoF) (.slash (.slash (nameExpr ['d'] [['r']]) (.step .child (.name ['n']))) (.step .child .text))
      (.slash (nameExpr ['d'] [['r']]) (.slash (.step .child (.name ['n'])) (.step .child .text))) :=
  ⟨by with_unfolding_all rfl, .pathAssoc _ _ (.step _ _)⟩

/-- C159: what looks up does not go through: `d/r/..` yields the document element for each record, and `*/..` on a record alone its own
root. -/
theorem C159_only_down :
    let up : Expr NoF := .step .parent .node
    xmlXPath noFloats (fun _ => none) 0 (.elem ['d'] [] [.elem ['r'] [] []]) [] (.parsed (.slash (nameExpr ['d'] [['r']]) up)) =
      ⟨[.node []], .done⟩ ∧
    xmlXPath noFloats (fun _ => none) 0 (.elem ['r'] [] []) [] (.parsed (.slash (.step .child .star) up)) = ⟨[.root], .done⟩ := by
  decide +kernel

end Amara
