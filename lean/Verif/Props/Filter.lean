import Verif.Spec.Filter
import Verif.Props.StreamTests
import Verif.Props.Selectors
/-
C174: a program that reads a document record by record and copies the records that pass a test (Spec/Filter) writes the elements that the
query with that test finds in the whole document, in their order, as a document that reads back as just that.
-/
namespace Amara
variable {F : Type}

theorem here_filter {d : Node} {ts : Tests} {u : Spot} {fs : List Found} :
    (TestedList.path (.filter (.core .here) ts)).Gives d u fs ↔ (ts.Hold d u ∧ fs = [.node u]) ∨ (¬ ts.Hold d u ∧ fs = []) := by
  have hh : ∀ ws, (TestedPath.core .here).Gives d u ws ↔ ws = [u] := fun ws => Iff.rfl
  constructor
  · rintro ⟨vs, ⟨ws, h1, h2⟩, rfl⟩
    rw [(hh ws).1 h1] at h2
    rcases h2 with ⟨h3, xs, rfl, h4⟩ | ⟨h3, h4⟩
    · cases h4; exact .inl ⟨h3, rfl⟩
    · cases h4; exact .inr ⟨h3, rfl⟩
  · rintro (⟨h, rfl⟩ | ⟨h, rfl⟩)
    · exact ⟨[u], ⟨[u], (hh _).2 rfl, .inl ⟨h, [], rfl, rfl⟩⟩, rfl⟩
    · exact ⟨[], ⟨[u], (hh _).2 rfl, .inr ⟨h, rfl⟩⟩, rfl⟩

/-- Tests that look down say the same of a record as of its element in the document. -/
theorem hold_moved {d : Node} (hd : d.NoEmptyText) (hdict : d.Dicts) {q : Path} {x : Node} (hq : d.at? q = some x) (hx : x.isText = false)
    {ts : Tests} (ht : ts.Ok) (hdn : ts.down = true) : ts.Hold x (.at []) ↔ ts.Hold d (.at q) := by
  have hl : (TestedList.path (.filter (.core .here) ts)).Ok := ⟨trivial, ht⟩
  have hdn' : (TestedList.path (.filter (.core .here) ts)).down = true := by simp [TestedList.down, TestedPath.down, CorePath.down, hdn]
  constructor
  · intro h
    have := gives_moved hd hdict hq hx hl hdn' (here_filter.2 (.inl ⟨h, rfl⟩))
    rcases here_filter.1 this with ⟨h, _⟩ | ⟨_, h⟩
    · exact h
    · cases h
  · intro h
    apply Classical.byContradiction
    intro hn
    have := gives_moved hd hdict hq hx hl hdn' (here_filter.2 (.inr ⟨hn, rfl⟩))
    rcases here_filter.1 this with ⟨_, h⟩ | ⟨hn, _⟩
    · cases h
    · exact hn h

/-- C174: asked `*[t]…`, a record is found itself or nothing is, by whether the tests hold of its element in the document. -/
theorem C174_testing_a_record (fo : FloatOps F) (vars : Str → Option (Item F)) (k : Nat) {d : Node} (hd : d.NoEmptyText) (hdict : d.Dicts)
    {q : Path} {x : Node} (hq : d.at? q = some x) (hx : x.isText = false) {ts : Tests} (ht : ts.Ok) (hdn : ts.down = true)
    {wt : List (X.Tok F)} (hw : WritesTests wt ts) {s : Str} (hs : X.Written fo (.star :: wt) s) :
    (ts.Hold d (.at q) → xmlXPath fo vars k x [] (.str s) = ⟨[.node []], .done⟩) ∧
    (¬ ts.Hold d (.at q) → xmlXPath fo vars k x [] (.str s) = ⟨[], .done⟩) := by
  have hd' := record_plain hq hd
  have hdict' := record_dicts hq hdict
  have hparse := C167_is_read fo (.path (.filter (.core (.rel (.step .children))) (by simp) hw)) (w := .star :: wt) hs
  have key : ∀ vs : List Spot, OnlyThose (ts.Hold x) [.at []] vs → xmlXPath fo vars k x [] (.str s) = ⟨(vs.map Found.node).map Found.item, .done⟩ := by
    intro vs hv
    have h1 := (C166_exactly (queryEnv fo vars x) hd' hdict' k (l := .path (.filter (.core .children) ts)) ⟨trivial, ht⟩ (u := .root) trivial _).2
      ⟨_, ⟨vs, ⟨_, (children_of_root hd' hdict' hx _).2 rfl, hv⟩, rfl⟩, rfl⟩
    simp only [xmlXPath, parseText_eq hparse, contextItem, if_true]
    exact h1
  rw [← hold_moved hd hdict hq hx ht hdn]
  exact ⟨fun h => key [.at []] (.inl ⟨h, [], rfl, rfl⟩), fun h => key [] (.inr ⟨h, rfl⟩)⟩

theorem filter_records_of (fo : FloatOps F) (vars : Str → Option (Item F)) (k : Nat) {d : Node} (hd : d.NoEmptyText) (hdict : d.Dicts)
    {pre : CorePath} (hpre : pre.Ok) {wp : List (X.Tok F)} (hwp : WritesRel wp pre) {recs : List (Path × Node)} (ho : InDocOrder recs)
    (hgive : pre.Gives d .root (recs.map fun r => .at r.1)) (hel : ∀ q x, (q, x) ∈ recs → d.at? q = some x ∧ x.isText = false)
    {ts : Tests} (ht : ts.Ok) (hdn : ts.down = true) {wt : List (X.Tok F)} (hw : WritesTests wt ts) {s : Str}
    (hs : X.Written fo (.star :: wt) s) :
    (∀ x ∈ recs.map Prod.snd, (xmlXPath fo vars k x [] (.str s)).tail = .done) ∧
    ∃ kept, InDocOrder kept ∧ (∀ r, r ∈ kept ↔ r ∈ recs ∧ ts.Hold d (.at r.1)) ∧
      (recs.map Prod.snd).filter (passes fo vars k s) = kept.map Prod.snd ∧
      ∀ s', X.Written fo (wp ++ wt) s' → xmlXPath fo vars k d [] (.str s') = ⟨kept.map fun r => .node r.1, .done⟩ := by
  have hpass : ∀ q x, (q, x) ∈ recs → (passes fo vars k s x = true ↔ ts.Hold d (.at q)) := by
    intro q x hq
    obtain ⟨a1, a2⟩ := C174_testing_a_record fo vars k hd hdict (hel q x hq).1 (hel q x hq).2 ht hdn hw hs
    by_cases h : ts.Hold d (.at q)
    · simp [passes, a1 h, h]
    · simp [passes, a2 h, h]
  constructor
  · intro x hx
    obtain ⟨⟨q, y⟩, hm, rfl⟩ := List.mem_map.1 hx
    obtain ⟨a1, a2⟩ := C174_testing_a_record fo vars k hd hdict (hel q y hm).1 (hel q y hm).2 ht hdn hw hs
    by_cases h : ts.Hold d (.at q)
    · rw [a1 h]
    · rw [a2 h]
  · refine ⟨recs.filter fun r => passes fo vars k s r.2, List.Pairwise.sublist List.filter_sublist ho, ?_, ?_, ?_⟩
    · intro r
      rw [List.mem_filter]
      exact and_congr_right fun h1 => hpass r.1 r.2 h1
    · rw [List.filter_map]; rfl
    · intro s' hs'
      have hparse := C167_is_read fo (.path (.filter (.core (.rel hwp)) (by simp) hw)) hs'
      have h1 := (C166_exactly (queryEnv fo vars d) hd hdict k (l := .path (.filter (.core pre) ts)) ⟨hpre, ht⟩ (u := .root) trivial _).2
        ⟨_, ⟨_, ⟨_, hgive, onlyThose_some (P := ts.Hold d) (g := fun r : Path × Node => Spot.at r.1)
          (f := fun r => passes fo vars k s r.2) recs fun r hm => hpass r.1 r.2 hm⟩, rfl⟩, rfl⟩
      simp only [xmlXPath, parseText_eq hparse, contextItem, if_true]
      rw [List.map_map, List.map_map] at h1
      exact h1

theorem filter_records (fo : FloatOps F) (vars : Str → Option (Item F)) (k : Nat) {d : Node} (hd : d.NoEmptyText) (hdict : d.Dicts) {n : Str}
    {ms : List Str} {recs : List (Path × Node)} (ho : InDocOrder recs)
    (hr : ∀ q x, (q, x) ∈ recs ↔ d.at? q = some x ∧ d.Named n [] ∧ d.Along [] ms q) {ts : Tests} (ht : ts.Ok) (hdn : ts.down = true)
    {wt : List (X.Tok F)} (hw : WritesTests wt ts) {s : Str} (hs : X.Written fo (.star :: wt) s) :
    (∀ x ∈ recs.map Prod.snd, (xmlXPath fo vars k x [] (.str s)).tail = .done) ∧
    ∃ kept, InDocOrder kept ∧
      (∀ q x, (q, x) ∈ kept ↔ d.at? q = some x ∧ d.Named n [] ∧ d.Along [] ms q ∧ ts.Hold d (.at q)) ∧
      (recs.map Prod.snd).filter (passes fo vars k s) = kept.map Prod.snd ∧
      ∀ s', X.Written fo (nameTokens n ms ++ wt) s' → xmlXPath fo vars k d [] (.str s') = ⟨kept.map fun r => .node r.1, .done⟩ := by
  obtain ⟨a1, kept, a2, a3, a4, a5⟩ := filter_records_of fo vars k hd hdict (names_ok n ms) (writes_names n ms) ho (names_give hd hdict ho hr)
    (fun q x hq => by
      obtain ⟨h1, h2, h3⟩ := (hr q x).1 hq
      exact ⟨h1, along_isElem h1 h2 h3⟩) ht hdn hw hs
  refine ⟨a1, kept, a2, fun q x => ?_, a4, a5⟩
  rw [a3, hr q x, and_assoc, and_assoc]

/-- C174: feed a document to a tree sender with the pattern `(n, m₁, …, mₖ)` and a sink that writes the records that pass `*[t]…`, where the
tests look down.  Asking never raises; the records written are the elements along the names of which the tests hold in the document, in
document order; they are what the query `n/m₁/…/mₖ[t]…` on the whole document finds; and the output is that much text. -/
theorem C174_filtered_stream (fo : FloatOps F) (vars : Str → Option (Item F)) (k : Nat) {d : Node} {w : Str} (h : IsDoc d w) {n : Str}
    {ms : List Str} (hm : ∀ m ∈ n :: ms, IsTestName m) {ts : Tests} (ht : ts.Ok) (hdn : ts.down = true) {wt : List (X.Tok F)}
    (hw : WritesTests wt ts) {s : Str} (hs : X.Written fo (.star :: wt) s) (prefixes : List (Str × Str)) (wrapper : Str) :
    ∃ os kept, (newSender [stringPattern (n :: ms)]).parse w = (os, some (newSender [stringPattern (n :: ms)])) ∧
      (∀ x ∈ (os.map (sentTo 0)).flatten, (xmlXPath fo vars k x [] (.str s)).tail = .done) ∧
      InDocOrder kept ∧ (∀ q x, (q, x) ∈ kept ↔ d.at? q = some x ∧ d.Named n [] ∧ d.Along [] ms q ∧ ts.Hold d (.at q)) ∧
      writtenAtEnd prefixes wrapper ((os.map (sentTo 0)).flatten.filter (passes fo vars k s)) =
        some ('<' :: (wrapper ++ (declarations prefixes ++ '>' ::
          ((kept.flatMap fun r => r.2.encode) ++ '<' :: '/' :: (wrapper ++ ['>']))))) ∧
      ∀ s', X.Written fo (nameTokens n ms ++ wt) s' → ∀ a, QQuery fo vars k (.str w) (.str s') a ↔
        a = .items d ⟨kept.map fun r => .node r.1, .done⟩ := by
  obtain ⟨os, recs, a1, a2, a3, a4⟩ := C33_all_sent_partial h (stringPattern (n :: ms)) (by simp [stringPattern]) (stringPattern_safe hm)
  have hr := records_along hm a4
  obtain ⟨b1, kept, b2, b3, b4, b5⟩ := filter_records fo vars k (doc_noEmpty h) (fun p m as cs hp => doc_dicts h hp) a3 hr ht hdn hw hs
  rw [← a2] at b1 b4
  refine ⟨os, kept, a1, b1, b2, b3, ?_, fun s' hs' a => ?_⟩
  · rw [b4, (C145_written prefixes wrapper _ ?_).2, List.flatMap_map]
    intro x hx
    obtain ⟨⟨q, y⟩, hk, rfl⟩ := List.mem_map.1 hx
    obtain ⟨c1, c2, c3, _⟩ := (b3 q y).1 hk
    exact along_isElem c1 c2 c3
  · rw [(C85_ways_to_ask_partial fo vars k _).2.2 d w a h, b5 s' hs']

/-- C174: the same for full XML, fed in pieces to an `xmliter.sender`; the tree `d` is the one all the callbacks of expat stand for. -/
theorem C174_filtered_xml_stream (fo : FloatOps F) (vars : Str → Option (Item F)) (k : Nat) {d : Node} (hd : d.isText = false)
    (hne : d.NoEmptyText) (hdict : d.Dicts) {pieces : List (List XCall)} (hr : Reports pieces.flatten (d.events [])) {n : Str} {ms : List Str}
    (hm : ∀ m ∈ n :: ms, IsTestName m) (self : Id) {ts : Tests} (ht : ts.Ok) (hdn : ts.down = true) {wt : List (X.Tok F)}
    (hw : WritesTests wt ts) {s : Str} (hs : X.Written fo (.star :: wt) s) (prefixes : List (Str × Str)) (wrapper : Str) :
    let calls := (newXSender [stringPattern (n :: ms)]).feeds takesAll self .new (goodCalls pieces)
    (∀ c ∈ calls.1, c.2 = false) ∧
    (∀ x ∈ calls.2.1.got 0, (xmlXPath fo vars k x [] (.str s)).tail = .done) ∧
    ∃ kept, InDocOrder kept ∧ (∀ q x, (q, x) ∈ kept ↔ d.at? q = some x ∧ d.Named n [] ∧ d.Along [] ms q ∧ ts.Hold d (.at q)) ∧
      writtenAtEnd prefixes wrapper ((calls.2.1.got 0).filter (passes fo vars k s)) =
        some ('<' :: (wrapper ++ (declarations prefixes ++ '>' ::
          ((kept.flatMap fun r => r.2.encode) ++ '<' :: '/' :: (wrapper ++ ['>']))))) ∧
      ∀ s', X.Written fo (nameTokens n ms ++ wt) s' → xmlXPath fo vars k d [] (.str s') = ⟨kept.map fun r => .node r.1, .done⟩ := by
  obtain ⟨l, a1, a2, a3⟩ := C145_records hd hr (p := stringPattern (n :: ms)) (by simp [stringPattern]) (stringPattern_safe hm) self [] []
  obtain ⟨c1, l1, _, c3, _, c5, _⟩ := a3 pieces [] (by simp)
  have := c3 rfl
  subst this
  obtain ⟨b1, kept, b2, b3, b4, b5⟩ := filter_records fo vars k hne hdict a1 (records_along hm a2) ht hdn hw hs
  rw [← c5] at b1 b4
  refine ⟨c1, b1, kept, b2, b3, ?_, b5⟩
  rw [b4, (C145_written prefixes wrapper _ ?_).2, List.flatMap_map]
  intro x hx
  obtain ⟨⟨q, y⟩, hk, rfl⟩ := List.mem_map.1 hx
  obtain ⟨c1, c2, c3, _⟩ := (b3 q y).1 hk
  exact along_isElem c1 c2 c3

/-- C174: if the document has only characters MicroXML allows, the output is read by the MicroXML parser as one element with copies of just
the elements along the names of which the tests hold as its children (adjacent texts merged). -/
theorem C174_reads_back (fo : FloatOps F) (vars : Str → Option (Item F)) (k : Nat) {d : Node} {w : Str} (h : IsDoc d w) (hwr : d.Writable)
    {n : Str} {ms : List Str} (hm : ∀ m ∈ n :: ms, IsTestName m) {ts : Tests} (ht : ts.Ok) (hdn : ts.down = true) {wt : List (X.Tok F)}
    (hw : WritesTests wt ts) {s : Str} (hs : X.Written fo (.star :: wt) s) {wrapper : Str} (hn : IsName wrapper) :
    ∃ kept out, InDocOrder kept ∧
      (∀ q x, (q, x) ∈ kept ↔ d.at? q = some x ∧ d.Named n [] ∧ d.Along [] ms q ∧ ts.Hold d (.at q)) ∧
      writtenAtEnd [] wrapper ((((newSender [stringPattern (n :: ms)]).parse w).1.map (sentTo 0)).flatten.filter (passes fo vars k s)) = some out ∧
      ∀ b r b', TreeParse b out r b' → ∃ i, r = .returned (some i) ∧ Rep b'.heap none i (.elem wrapper [] (kept.map fun x => x.2.norm)) := by
  obtain ⟨os, recs, a1, a2, a3, a4⟩ := C33_all_sent_partial h (stringPattern (n :: ms)) (by simp [stringPattern]) (stringPattern_safe hm)
  obtain ⟨b1, kept, b2, b3, b4, b5⟩ := filter_records fo vars k (doc_noEmpty h) (fun p m as cs hp => doc_dicts h hp) a3 (records_along hm a4) ht hdn hw hs
  rw [← a2] at b4
  have hel : ∀ x ∈ kept.map Prod.snd, x.Writable ∧ x.isText = false := by
    intro x hx
    obtain ⟨⟨q, y⟩, hk, rfl⟩ := List.mem_map.1 hx
    obtain ⟨c1, c2, c3, _⟩ := (b3 q y).1 hk
    exact ⟨writable_at q hwr c1, along_isElem c1 c2 c3⟩
  obtain ⟨out, ho⟩ : ∃ out, writtenAtEnd [] wrapper (kept.map Prod.snd) = some out := ⟨_, (C145_written [] wrapper _ fun x hx => (hel x hx).2).2⟩
  refine ⟨kept, out, b2, b3, ?_, fun b r b' hp => ?_⟩
  · rw [a1, b4]; exact ho
  · have := reads_back (fun x hx => (hel x hx).1) (fun x hx => (hel x hx).2) hn none (by simp) ho hp
    rwa [List.map_map] at this

/-- `[n[.='z']]` -/
def exTest : Tests := .one (.found exZ)

-- tests, tokens and names are as the theorems want them
example : exTest.Ok ∧ exTest.down = true ∧ (∀ m ∈ [['d'], ['r']], IsTestName m) ∧ IsName ['w'] ∧
    WritesTests (F := F) [.lbrack, .name ['n'], .lbrack, .dot, .equal false, .literal ['z'], .rbrack, .rbrack] exTest := by
  have hn := WritesPath.rel (F := F) (.step (.child (m := .name ['n']) trivial))
  refine ⟨by simp [exTest, exZ, Tests.Ok, TestedList.Ok, TestedPath.Ok, ValueTest.Ok, CorePath.Ok], rfl, ?_, by decide,
    .one (.found (.path (.filter (.core hn) (by simp) (.one (.is (s := ['z']) (.path (.core (.rel (.step .here)))))))))⟩
  intro m hm
  rcases List.mem_cons.1 hm with rfl | hm
  · exact ⟨'d', [], rfl, by unfold NameStartCode; decide, by simp, by decide⟩
  · rw [List.mem_singleton.1 hm]
    exact ⟨'r', [], rfl, by unfold NameStartCode; decide, by simp, by decide⟩

-- of the three records of `exRecords` only the last one has a `z`; the program writes just that one
example : X.xparse noFloats "*[n[.='z']]".toList = some (.ok (TestedList.path (.filter (.core .children) exTest)).expr) ∧
    writtenAtEnd [] ['w'] ([.elem ['r'] [] [.elem ['n'] [] [.text ['x']]], .elem ['r'] [] [],
      .elem ['r'] [] [.elem ['n'] [] [.text ['y']], .elem ['n'] [] [.text ['z']]]].filter
        (passes noFloats (fun _ => none) 0 "*[n[.='z']]".toList)) = some "<w><r><n>y</n><n>z</n></r></w>".toList := by
  have h1 : X.xparse noFloats "*[n[.='z']]".toList = some (.ok (TestedList.path (.filter (.core .children) exTest)).expr) := by with_unfolding_all rfl
  refine ⟨h1, ?_⟩
  have : passes noFloats (fun _ => none) 0 "*[n[.='z']]".toList = fun x =>
      !(xmlXPath noFloats (fun _ => none) 0 x [] (.parsed (TestedList.path (.filter (.core .children) exTest)).expr)).items.isEmpty := by
    funext x
    rw [passes, asked_parsed h1]
  rw [this]
  decide +kernel

/-- C174 needs tests that look down: of a record nothing is around, so `*[following-sibling::r]` finds nothing in any of the records though
the query `d/r[following-sibling::r]` finds all but the last. -/
theorem C174_only_what_is_in_the_record :
    let ts : Tests := .one (.found (.path (.core (.step .followingSibling ['r']))))
    let d : Node := .elem ['d'] [] [.elem ['r'] [] [], .elem ['r'] [] []]
    ts.down = false ∧ X.xparse noFloats "*[following-sibling::r]".toList = some (.ok (TestedList.path (.filter (.core .children) ts)).expr) ∧
    X.xparse noFloats "d/r[following-sibling::r]".toList = some (.ok (TestedList.path (.filter (.core (.names ['d'] [['r']])) ts)).expr) ∧
    xmlXPath noFloats (fun _ => none) 0 (.elem ['r'] [] []) [] (.str "*[following-sibling::r]".toList) = ⟨[], .done⟩ ∧
    xmlXPath noFloats (fun _ => none) 0 d [] (.str "d/r[following-sibling::r]".toList) = ⟨[.node [0]], .done⟩ := by
  intro ts d
  have h1 : X.xparse noFloats "*[following-sibling::r]".toList = some (.ok (TestedList.path (.filter (.core .children) ts)).expr) := by
    with_unfolding_all rfl
  have h2 : X.xparse noFloats "d/r[following-sibling::r]".toList = some (.ok (TestedList.path (.filter (.core (.names ['d'] [['r']])) ts)).expr) := by
    with_unfolding_all rfl
  rw [asked_parsed h1, asked_parsed h2]
  refine ⟨rfl, h1, h2, by decide +kernel, by decide +kernel⟩

end Amara
