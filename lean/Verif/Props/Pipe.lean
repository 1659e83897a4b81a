import Verif.Spec.Pipe
import Verif.Props.XSender
import Verif.Props.Writer
import Verif.Props.SenderCut
/-
C145: the records of a stream written into a new document.
-/
namespace Amara

/-! ### what is written -/

theorem noEmpty_calls : (∀ x : Node, NoEmpty x.calls) ∧ (∀ xs : List Node, NoEmpty (Node.callsList xs)) := by
  apply Node.induct
  case elem =>
    intro n as cs ih m bs hm
    simp only [Node.calls, List.mem_cons, List.mem_append, List.not_mem_nil, or_false] at hm
    rcases hm with h | h | h
    · cases h
    · exact ih m bs h
    · cases h
  case text => intro s m bs hm; simp [Node.calls] at hm
  case nil => intro m bs hm; simp [Node.callsList] at hm
  case cons =>
    intro x xs h1 h2 m bs hm
    simp only [Node.callsList, List.mem_append] at hm
    rcases hm with h | h
    · exact h1 m bs h
    · exact h2 m bs h

theorem writeAll_calls (xs : List Node) (hx : ∀ x ∈ xs, x.isText = false) (w : Writer) :
    w.writeAll xs = w.calls (Node.callsList xs) := by
  induction xs generalizing w with
  | nil => rfl
  | cons x xs ih =>
    rw [Writer.writeAll, Node.callsList, calls_append]
    have h1 := hx x (by simp)
    cases x with
    | text s => cases h1
    | elem n as cs =>
      rw [writeElem_calls _ n as cs rfl]
      cases w.calls (Node.calls (.elem n as cs)) with
      | none => rfl
      | some w' => exact ih (fun y hy => hx y (by simp [hy])) w'

theorem encode_list (xs : List Node) (hx : ∀ x ∈ xs, x.isText = false) :
    (Node.callsList xs).flatMap Call.plain = xs.flatMap Node.encode := by
  induction xs with
  | nil => rfl
  | cons x xs ih =>
    rw [Node.callsList, List.flatMap_append, List.flatMap_cons, ih fun y hy => hx y (by simp [hy])]
    have h1 := hx x (by simp)
    cases x with
    | text s => cases h1
    | elem n as cs => rw [plain_calls.1 _ n as cs rfl]

theorem prefixed_none (cs : List Call) : cs.map (Call.prefixed []) = cs := by
  rw [show Call.prefixed [] = id from funext prefixed_nil_call, List.map_id]

/-- C145: what is in the output file: the wrapper's start tag with the declarations and, for each record received so far,
what `xml_encode` gives for it. -/
theorem C145_written (prefixes : List (Str × Str)) (wrapper : Str) (xs : List Node) (hx : ∀ x ∈ xs, x.isText = false) :
    writtenSoFar prefixes wrapper xs =
      some ('<' :: (wrapper ++ (declarations prefixes ++ '>' :: xs.flatMap Node.encode))) ∧
    writtenAtEnd prefixes wrapper xs =
      some ('<' :: (wrapper ++ (declarations prefixes ++ '>' :: (xs.flatMap Node.encode ++ '<' :: '/' :: (wrapper ++ ['>']))))) := by
  obtain ⟨w1, a1, a2, a3, b, a4⟩ := nsStart_first (w := Writer.namespacer prefixes []) rfl rfl rfl wrapper []
  obtain ⟨w2, b1, b2⟩ := nsCalls_later a4 rfl a2 (Node.callsList xs) (noEmpty_calls.2 xs)
  obtain ⟨w3, c1, c2⟩ := nsCalls_later a4 rfl a2 (Node.callsList xs ++ [.stop wrapper])
    (by intro n as hm; simp only [List.mem_append, List.mem_singleton] at hm; rcases hm with h | h
        · exact noEmpty_calls.2 xs n as h
        · cases h)
  rw [writtenSoFar, writtenAtEnd, a1]
  simp only [Option.bind_some]
  rw [writeAll_calls xs hx, b1]
  rw [calls_append, b1, Option.bind_some] at c1
  simp only [Writer.calls, Writer.call, Option.bind_some, Option.some.injEq] at c1
  simp only [Option.map_some, c1]
  rw [b2, c2, prefixed_none, prefixed_none, List.flatMap_append, encode_list xs hx, a3]
  simp [Writer.namespacer, prefixed_nil, encodeAttrs, prefixedAttrs, Call.plain]

/-! ### which records -/

/-- What is delivered, as a list of positions and elements. -/
theorem delivers_filter {F : Path → Prop} [∀ q, Decidable (F q)] {ms os} (hd : Delivers F ms os) :
    os.flatten = ((ms.filterMap (·.2)).filter fun r => decide (F r.1)).map (·.2) := by
  induction hd with
  | nil => rfl
  | inside _ ih => simpa using ih
  | match_ h _ ih => simp [h, ih]
  | other h _ ih => simp [h, ih]

/-- Outermost matches come in document order. -/
theorem outermost_ordered {e : Node} {p : List (Stage Event)} {l : List (Path × Node)}
    (h4 : l.Sublist ((e.marks [] []).filterMap (·.2)))
    (hmem : ∀ q x, (q, x) ∈ l → ∃ t, e.opened [] q = some t ∧ Outermost Event.look p t) : InDocOrder l := by
  obtain ⟨_, m2⟩ := marks_list.1 e [] []
  refine List.Pairwise.imp_of_mem ?_ (List.Pairwise.sublist h4 m2)
  rintro ⟨q, x⟩ ⟨q', x'⟩ ha hb (hlt | ⟨i, r, hq⟩)
  · exact hlt
  · obtain ⟨t, ht, ho⟩ := hmem _ _ ha
    obtain ⟨t2, ht2, ho2⟩ := hmem _ _ hb
    simp only at hq
    subst hq
    obtain ⟨t', t'', k1, rfl, k3⟩ := opened_append ht
    rw [ht2] at k1
    injection k1 with k1
    subst k1
    exact absurd ho2.1 (ho.2 t2 ⟨t'', rfl⟩ (by
      intro he
      exact k3 (by simp) (by simpa using he.symm)))

/-- C145: full XML, fed in pieces, with a sink that writes.  The records are the outermost elements that the pattern
fits.  When expat has made any number of its callbacks, in whatever calls of `parse`, nothing was raised, and the output
file has the wrapper's start tag and the serialisations of the records whose end has been reported, in document order. -/
theorem C145_records {e : Node} (he : e.isText = false) {cbs : List XCall} (hr : Reports cbs (e.events []))
    {p : List (Stage Event)} (hne : p ≠ []) (hs : Safe p) (self : Id) (prefixes : List (Str × Str)) (wrapper : Str) :
    ∃ l : List (Path × Node), InDocOrder l ∧
      (∀ q x, (q, x) ∈ l ↔ e.at? q = some x ∧ x.isText = false ∧ ∃ t, e.opened [] q = some t ∧ Outermost Event.look p t) ∧
      ∀ (pieces : List (List XCall)) (rest : List XCall), cbs = pieces.flatten ++ rest →
        let calls := (newXSender [p]).feeds takesAll self .new (goodCalls pieces)
        (∀ c ∈ calls.1, c.2 = false) ∧ ∃ l1, l1 <+: l ∧ (rest = [] → l1 = l) ∧
          (∀ r ∈ l, r ∈ l1 ↔ r ∈ ((e.marks [] []).take pieces.flatten.length).filterMap (·.2)) ∧
          calls.2.1.got 0 = l1.map (·.2) ∧
          writtenSoFar prefixes wrapper (calls.2.1.got 0) =
            some ('<' :: (wrapper ++ (declarations prefixes ++ '>' :: (l1.map (·.2)).flatMap Node.encode))) ∧
          writtenAtEnd prefixes wrapper (calls.2.1.got 0) =
            some ('<' :: (wrapper ++ (declarations prefixes ++ '>' :: ((l1.map (·.2)).flatMap Node.encode ++
              '<' :: '/' :: (wrapper ++ ['>']))))) := by
  classical
  have hc := (callable_of_safe _ p (Nat.le_refl _)).1 hne hs
  obtain ⟨os, h1, h2⟩ := C137_document he hr [p] (by simpa using hc) self
  have hd : Delivers (fun q => ∃ t, e.opened [] q = some t ∧ Outermost Event.look p t) (e.marks [] []) (os.map (sentTo 0)) := by
    refine delivers_congr (fun q => ?_) (h1 0 p (by simp [GoesBy]))
    have key : ∀ {t}, e.opened [] q = some t → (Outermost Event.look p t ↔ (ReachesFirst p (stretched 1 0 t) ∧
        ∀ t', t' <+: t → t' ≠ t → ¬ ReachesFirst p (stretched 1 0 t'))) := fun ht => by
      rw [← first_single_iff hne hs (opened_starts ht), firstFrom_first_iff hne (opened_starts ht)]
    constructor
    · rintro ⟨t, ht, h⟩; exact ⟨t, ht, (key ht).2 h⟩
    · rintro ⟨t, ht, h⟩; exact ⟨t, ht, (key ht).1 h⟩
  obtain ⟨m1, _⟩ := marks_list.1 e [] []
  refine ⟨((e.marks [] []).filterMap (·.2)).filter fun r => decide (∃ t, e.opened [] r.1 = some t ∧ Outermost Event.look p t),
    outermost_ordered List.filter_sublist (fun q x hm => of_decide_eq_true (List.mem_filter.1 hm).2), ?_, ?_⟩
  · intro q x
    rw [List.mem_filter, m1, decide_eq_true_iff]
    constructor
    · rintro ⟨⟨r, rfl, a, b⟩, c⟩; exact ⟨a, b, c⟩
    · rintro ⟨a, b, c⟩; exact ⟨⟨q, rfl, a, b⟩, c⟩
  · intro pieces rest hcb
    obtain ⟨g1, g2⟩ := h2 pieces rest hcb
    have hgot := g2 0
    have hdt := delivers_filter (delivers_take hd pieces.flatten.length)
    rw [← List.map_take] at hdt
    refine ⟨g1, (((e.marks [] []).take pieces.flatten.length).filterMap (·.2)).filter
      fun r => decide (∃ t, e.opened [] r.1 = some t ∧ Outermost Event.look p t), ?_, ?_, ?_, ?_⟩
    · obtain ⟨r, hr⟩ := List.take_prefix pieces.flatten.length (e.marks [] [])
      refine ⟨(r.filterMap (·.2)).filter fun r => decide (∃ t, e.opened [] r.1 = some t ∧ Outermost Event.look p t), ?_⟩
      rw [← List.filter_append, ← List.filterMap_append, hr]
    · rintro rfl
      rw [List.append_nil] at hcb
      have hl : (e.marks [] []).length = pieces.flatten.length := by
        rw [← hcb, reports_length hr, ← marks_events.1 e [] [], List.length_map]
      rw [← hl, List.take_length]
    · intro r hrm
      rw [List.mem_filter, (List.mem_filter.1 hrm).2]
      simp
    · rw [hgot, hdt]
      refine ⟨rfl, ?_⟩
      refine C145_written prefixes wrapper _ fun x hx => ?_
      obtain ⟨⟨q, y⟩, hm, rfl⟩ := List.mem_map.1 hx
      obtain ⟨ev, h5, h6⟩ := List.mem_filterMap.1 (List.mem_filter.1 hm).1
      obtain ⟨r, _, _, h7⟩ := (m1 q y).1 (List.mem_filterMap.2 ⟨ev, List.mem_of_mem_take h5, h6⟩)
      exact h7

theorem flatMap_of_map {xs ys : List Node} (h : xs.map Node.encode = ys.map Node.encode) :
    xs.flatMap Node.encode = ys.flatMap Node.encode := by
  rw [List.flatMap_def, h, List.flatMap_def]

/-- C145: the output does not depend on how expat cuts the texts and in which calls of `parse` it makes its callbacks. -/
theorem C145_chunks {e1 e2 : Node} (he1 : e1.isText = false) (he2 : e2.isText = false) {pieces1 pieces2 : List (List XCall)}
    (h1 : Reports pieces1.flatten (e1.events [])) (h2 : Reports pieces2.flatten (e2.events []))
    (hj : joinChars (e1.events []) = joinChars (e2.events [])) {p : List (Stage Event)} (hne : p ≠ []) (hs : Safe p)
    (self : Id) (prefixes : List (Str × Str)) (wrapper : Str) :
    writtenAtEnd prefixes wrapper (((newXSender [p]).feeds takesAll self .new (goodCalls pieces1)).2.1.got 0) =
    writtenAtEnd prefixes wrapper (((newXSender [p]).feeds takesAll self .new (goodCalls pieces2)).2.1.got 0) := by
  have hw : ∀ {e : Node}, e.isText = false → WellNested (e.events []) := by
    intro e he
    cases e with
    | text s => cases he
    | elem n as cs => rw [WellNested, track_doc]; simp
  have h := ((C137_chunks h1 h2 (hw he1) (hw he2) hj [p] self).2 0).2.2
  obtain ⟨l, _, _, a⟩ := C145_records he1 h1 hne hs self prefixes wrapper
  obtain ⟨_, l1, _, _, _, a1, _, a2⟩ := a pieces1 [] (by simp)
  obtain ⟨m, _, _, b⟩ := C145_records he2 h2 hne hs self prefixes wrapper
  obtain ⟨_, m1, _, _, _, b1, _, b2⟩ := b pieces2 [] (by simp)
  rw [a1, b1] at h
  rw [a2, b2, flatMap_of_map h]

/-! ### reading it back -/

theorem writable_at {ok : Str → Prop} : ∀ (q : Path) {e x : Node}, e.WritableWith ok → e.at? q = some x → x.WritableWith ok := by
  intro q
  induction q with
  | nil => intro e x h hx; cases hx; exact h
  | cons k q ih =>
    intro e x h hx
    cases e with
    | text s => simp [Node.at?, Node.xmlChildren] at hx
    | elem n as cs =>
      simp only [Node.at?, Node.xmlChildren] at hx
      cases hk : cs[k]? with
      | none => rw [hk] at hx; cases hx
      | some y =>
        rw [hk] at hx
        refine ih ?_ hx
        obtain ⟨_, _, _, hl⟩ := h
        have hm := List.mem_of_getElem? hk
        clear hk hx
        induction cs with
        | nil => cases hm
        | cons c cs ihc =>
          rcases List.mem_cons.1 hm with rfl | hm
          · exact hl.1
          · exact ihc hl.2 hm

theorem writableList_of {ok : Str → Prop} {xs : List Node} (h : ∀ x ∈ xs, x.WritableWith ok) : Node.WritableList ok xs := by
  induction xs with
  | nil => trivial
  | cons x xs ih => exact ⟨h x (by simp), ih fun y hy => h y (by simp [hy])⟩

theorem normList_elems {xs : List Node} (ht : ∀ x ∈ xs, x.isText = false) : Node.normList xs = xs.map Node.norm := by
  induction xs with
  | nil => rfl
  | cons x xs ih =>
    have h1 := ht x (by simp)
    cases x with
    | text s => cases h1
    | elem n as cs => rw [Node.normList, ih fun y hy => ht y (by simp [hy])]; rfl

theorem reads_back {xs : List Node} (hx : ∀ x ∈ xs, x.Writable) (ht : ∀ x ∈ xs, x.isText = false) {wrapper : Str}
    (hn : IsName wrapper) (ns : Option Str) (hns : ∀ u, ns = some u → AttrValue u) {b r b'} {out : Str}
    (ho : writtenAtEnd (ns.toList.map fun u => ([], u)) wrapper xs = some out) (hp : TreeParse b out r b') :
    ∃ i, r = .returned (some i) ∧
      Rep b'.heap none i (.elem wrapper ((ns.toList.map fun u => ("xmlns".toList, u))) (xs.map Node.norm)) := by
  rw [(C145_written _ _ _ ht).2] at ho
  have hw : (Node.elem wrapper (ns.toList.map fun u => ("xmlns".toList, u)) xs).Writable := by
    refine ⟨hn, ?_, ?_, writableList_of hx⟩
    · intro q hq
      cases ns with
      | none => simp at hq
      | some u =>
        simp only [Option.toList_some, List.map_cons, List.map_nil, List.mem_singleton] at hq
        subst hq
        exact ⟨(by decide : IsName "xmlns".toList), hns u rfl⟩
    · cases ns <;> simp
  have henc : out = (Node.elem wrapper (ns.toList.map fun u => ("xmlns".toList, u)) xs).encode := by
    injection ho with ho
    rw [← ho, ← plain_calls.1 _ _ _ _ rfl, Node.calls, List.flatMap_cons, List.flatMap_append, encode_list xs ht]
    cases ns <;> simp [Call.plain, startTag, declarations, encodeAttrs]
  rw [henc] at hp
  obtain ⟨i, h1, h2⟩ := C15_serialise_then_parse hw rfl hp
  refine ⟨i, h1, ?_⟩
  have : (Node.elem wrapper (ns.toList.map fun u => ("xmlns".toList, u)) xs).norm =
      .elem wrapper (ns.toList.map fun u => ("xmlns".toList, u)) (xs.map Node.norm) := by
    rw [Node.norm, normList_elems ht]
  rwa [this] at h2

/-- C145: if the document is MicroXML, what is written at the end is read by the MicroXML parser as one element with
copies of the records as its children (adjacent texts merged); a default namespace is then an attribute. -/
theorem C145_reads_back {e : Node} (he : e.isText = false) (hwr : e.Writable) {pieces : List (List XCall)}
    (hr : Reports pieces.flatten (e.events [])) {p : List (Stage Event)} (hne : p ≠ []) (hs : Safe p) (self : Id)
    {wrapper : Str} (hn : IsName wrapper) (ns : Option Str) (hns : ∀ u, ns = some u → AttrValue u) :
    ∃ (l : List (Path × Node)) (out : Str), InDocOrder l ∧
      (∀ q x, (q, x) ∈ l ↔ e.at? q = some x ∧ x.isText = false ∧ ∃ t, e.opened [] q = some t ∧ Outermost Event.look p t) ∧
      writtenAtEnd (ns.toList.map fun u => ([], u)) wrapper
        (((newXSender [p]).feeds takesAll self .new (goodCalls pieces)).2.1.got 0) = some out ∧
      ∀ b r b', TreeParse b out r b' → ∃ i, r = .returned (some i) ∧
        Rep b'.heap none i (.elem wrapper (ns.toList.map fun u => ("xmlns".toList, u)) (l.map fun x => x.2.norm)) := by
  obtain ⟨l, h1, h2, h3⟩ := C145_records he hr hne hs self (ns.toList.map fun u => ([], u)) wrapper
  obtain ⟨_, l1, _, h4, _, h5, _, h6⟩ := h3 pieces [] (by simp)
  rw [h4 rfl] at h5 h6
  refine ⟨l, _, h1, h2, h6, fun b r b' hp => ?_⟩
  rw [h5] at h6
  have := reads_back (xs := l.map (·.2)) (fun x hx => by
      obtain ⟨⟨q, y⟩, hm, rfl⟩ := List.mem_map.1 hx
      exact writable_at q hwr ((h2 q y).1 hm).1) (fun x hx => by
      obtain ⟨⟨q, y⟩, hm, rfl⟩ := List.mem_map.1 hx
      exact ((h2 q y).1 hm).2.1) hn ns hns h6 hp
  rwa [List.map_map] at this

/-- `<w xmlns="u"><r>1&2</r><s></s><r></r></w>` with the pattern `w/r`, and the output of the records. -/
def exStream : Node := .elem ['w'] [] [.elem ['r'] [(['k'], ['"'])] [.text ['1', '&']], .elem ['s'] [] [], .elem ['r'] [] []]

example : Safe ([.name ['w'], .name ['r']] : List (Stage Event)) ∧
    Reports ([[.start "u w".toList [], .start "u r".toList [(['k'], ['"'])], .chars ['1', '&']], [.stop "u r".toList,
      .start "u s".toList [], .stop "u s".toList, .start "u r".toList [], .stop "u r".toList, .stop "u w".toList]].flatten)
      (exStream.events []) := by
  have q : ∀ l : Char, NoSpace [l] → QName ['u', ' ', l] [l] := fun l hl =>
    ⟨by simp, hl, .inr ⟨['u'], by simp, by unfold NoSpace; decide, rfl⟩⟩
  have ns : NoSpace ['w'] ∧ NoSpace ['r'] ∧ NoSpace ['s'] ∧ NoSpace ['k'] := by unfold NoSpace; decide
  obtain ⟨n1, n2, n3, n4⟩ := ns
  refine ⟨by simp [Safe], ?_⟩
  exact .start (q _ n1) .nil (.start (q _ n2) (.cons ⟨by simp, n4, .inl rfl⟩ .nil) (.chars (.stop (q _ n2)
    (.start (q _ n3) .nil (.stop (q _ n3) (.start (q _ n2) .nil (.stop (q _ n2) (.stop (q _ n1) .nil))))))))

example : writtenAtEnd [([], ['u'])] ['o'] [.elem ['r'] [(['k'], ['"'])] [.text ['1', '&']], .elem ['r'] [] []] =
    some "<o xmlns=\"u\"><r k='\"'>1&amp;</r><r></r></o>".toList := by decide +kernel

end Amara
