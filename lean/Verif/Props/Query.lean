import Verif.Model.Query
import Verif.Spec.Query
import Verif.Props.XPathMore
import Verif.Props.XParse
import Verif.Props.Tree
import Verif.Props.IsXml
import Verif.Lemmas.XSerial
/-
Properties C83 to C85: queries from end to end.
-/
namespace Amara

open X (xparse Written GStep GTest GRel)

variable {F : Type}

/-! ### the tree of a text -/

mutual
  theorem rep_unique {h : Heap} {p : Option Id} {i : Id} : ∀ {t t' : Node}, Rep h p i t → Rep h p i t' → t = t'
    | .elem n as ts, .elem n' as' ts', hr, hr' => by
      obtain ⟨cs, q, h1, _, _, h2⟩ := hr
      obtain ⟨cs', q', h1', _, _, h2'⟩ := hr'
      rw [h1] at h1'
      cases h1'
      rw [repList_unique h2 h2']
    | .text s, .text s', hr, hr' => by
      obtain ⟨q, h1, _⟩ := hr
      obtain ⟨q', h1', _⟩ := hr'
      rw [h1] at h1'
      cases h1'
      rfl
    | .elem n as ts, .text s, hr, hr' => by
      obtain ⟨cs, q, h1, _⟩ := hr
      obtain ⟨q', h1', _⟩ := hr'
      rw [h1] at h1'
      cases h1'
    | .text s, .elem n as ts, hr, hr' => by
      obtain ⟨cs, q, h1, _⟩ := hr'
      obtain ⟨q', h1', _⟩ := hr
      rw [h1] at h1'
      cases h1'
  theorem repList_unique {h : Heap} {p : Id} {cs : List Id} : ∀ {ts ts' : List Node}, RepList h p cs ts → RepList h p cs ts' → ts = ts'
    | [], [], _, _ => rfl
    | t :: ts, t' :: ts', hr, hr' => by
      obtain ⟨c, r, rfl, h1, h2⟩ := hr
      obtain ⟨c', r', h, h1', h2'⟩ := hr'
      cases h
      rw [rep_unique h1 h1', repList_unique h2 h2']
    | [], t :: ts, hr, hr' => by
      obtain ⟨c, r, h, _⟩ := hr'
      rw [show cs = [] from hr] at h
      cases h
    | t :: ts, [], hr, hr' => by
      obtain ⟨c, r, h, _⟩ := hr
      rw [show cs = [] from hr'] at h
      cases h
end

theorem content_noEmpty {ns : List Node} {w : Str} (h : IsContent ns w) : ∀ x ∈ ns, x.NoEmptyText := by
  induction h with
  | nil => intro x hx; cases hx
  | @text s raw ns w hs _ _ _ ih =>
    intro x hx
    rcases List.mem_cons.mp hx with rfl | hx
    · intro p
      cases p with
      | nil => intro h; cases h; exact hs rfl
      | cons i p => intro h; simp [Node.at?, Node.xmlChildren] at h
    · exact ih x hx
  | @elem n kvs wa cs wc ns w w0 w1 w2 w3 w4 _ _ _ _ _ _ _ _ _ ih1 ih2 =>
    intro x hx
    rcases List.mem_cons.mp hx with rfl | hx
    · intro p
      cases p with
      | nil => intro h; cases h
      | cons i p =>
        intro h
        simp only [Node.at?, Node.xmlChildren] at h
        cases hc : cs[i]? with
        | none => simp [hc] at h
        | some c =>
          simp only [hc] at h
          exact ih1 c (List.mem_of_getElem? hc) p h
    · exact ih2 x hx

/-- In a parsed document no text node is empty. -/
theorem doc_noEmpty {e : Node} {w : Str} (h : IsDoc e w) : e.NoEmptyText := by
  obtain ⟨_, w0, w1, w2, _, _, h, _⟩ := h
  exact content_noEmpty h e (by simp)

theorem parseText_eq {fo : FloatOps F} {s : Str} {r : Except XErr (Expr F)} (h : xparse fo s = some r) :
    parseText fo s = r := by
  rw [parseText, h]

/-! ### C83 -/

/-- C83: a query on the text of a document gives what the parsed expression yields at the root of the document the text
denotes; it always gives that, wherever the collector runs. -/
theorem C83_query_of_a_text (fo : FloatOps F) (vars : Str → Option (Item F)) (n : Nat) {e : Node} {w : Str} (h : IsDoc e w)
    {s : Str} {x : Expr F} (hx : xparse fo s = some (.ok x)) (a : Answer F) :
    QQuery fo vars n (.str w) (.str s) a ↔ a = .items e ((queryEnv fo vars e).run n x .root) := by
  have hq : ∀ doc, qqueryTree fo vars n doc [] (.str s) = (queryEnv fo vars doc).run n x .root := by
    intro doc
    simp only [qqueryTree, parseText_eq hx, contextItem, if_true]
  constructor
  · rintro ⟨h0, r, b', hp, ha⟩
    obtain ⟨i, hr, hi⟩ := C20_builder_builds_the_tree h hp
    subst hr
    obtain ⟨doc, hd, rfl⟩ := ha
    rw [rep_unique hd hi, hq]
  · rintro rfl
    obtain ⟨r, b', hp⟩ := treeParse_exists (Builder.new ⟨0, fun _ => none⟩) w
    obtain ⟨i, hr, hi⟩ := C20_builder_builds_the_tree h hp
    subst hr
    exact ⟨_, _, b', hp, e, hi, by rw [hq]⟩

/-- C83: an expression that is not well formed is reported, with a TypeError or a RuntimeError, and nothing else. -/
theorem C83_bad_expression (fo : FloatOps F) (vars : Str → Option (Item F)) (n : Nat) {e : Node} {w : Str} (h : IsDoc e w)
    {s : Str} {er : XErr} (hx : xparse fo s = some (.error er)) (a : Answer F) :
    QQuery fo vars n (.str w) (.str s) a ↔ a = .items e ⟨[], .err er⟩ := by
  have hq : ∀ doc, qqueryTree fo vars n doc [] (.str s) = (⟨[], .err er⟩ : Res F) := by
    intro doc
    simp only [qqueryTree, parseText_eq hx]
    rfl
  constructor
  · rintro ⟨h0, r, b', hp, ha⟩
    obtain ⟨i, hr, hi⟩ := C20_builder_builds_the_tree h hp
    subst hr
    obtain ⟨doc, hd, rfl⟩ := ha
    rw [rep_unique hd hi, hq]
  · rintro rfl
    obtain ⟨r, b', hp⟩ := treeParse_exists (Builder.new ⟨0, fun _ => none⟩) w
    obtain ⟨i, hr, hi⟩ := C20_builder_builds_the_tree h hp
    subst hr
    exact ⟨_, _, b', hp, e, hi, by rw [hq]⟩

/-- C83: a text that the parser refuses is reported as the parser reports it, whatever the expression. -/
theorem C83_bad_text (fo : FloatOps F) (vars : Str → Option (Item F)) (n : Nat) {w : Str} {er : Err}
    (h : (drive w).2 = .raised er) (xp : XPathThing F) (a : Answer F) :
    QQuery fo vars n (.str w) xp a ↔ a = .badText er := by
  constructor
  · rintro ⟨h0, r, b', hp, ha⟩
    have := hp.2
    rw [h] at this
    subst this
    exact ha
  · rintro rfl
    obtain ⟨r, b', hp⟩ := treeParse_exists (Builder.new ⟨0, fun _ => none⟩) w
    have := hp.2
    rw [h] at this
    subst this
    exact ⟨_, _, b', hp, rfl⟩

/-- C83: a query on bytes is a query on the text they are the UTF-8 form of; other bytes give a ValueError. -/
theorem C83_query_of_bytes (fo : FloatOps F) (vars : Str → Option (Item F)) (n : Nat) (xp : XPathThing F) (a : Answer F) :
    (∀ w, QQuery fo vars n (.bytes (utf8 w)) xp a ↔ QQuery fo vars n (.str w) xp a) ∧
    ∀ bs, (∀ w, bs ≠ utf8 w) → (QQuery fo vars n (.bytes bs) xp a ↔ ∃ doc, a = .items doc ⟨[], .err .value⟩) := by
  constructor
  · intro w
    simp only [QQuery, (decodeUtf8_iff (utf8 w) w).2 rfl]
  · intro bs h
    have : decodeUtf8 bs = none := by
      cases hd : decodeUtf8 bs with
      | none => rfl
      | some w => exact absurd ((decodeUtf8_iff bs w).1 hd) (h w)
    simp only [QQuery, this]
    rfl

/-! ### C84 -/

theorem testName_xname {n : Str} (h : IsTestName n) : X.XName n := by
  obtain ⟨c, r, rfl, h1, h2, h3⟩ := h
  exact .char (inRanges_start h1 (h3 c (by simp))) (xnameTail_of fun d hd => xnameChar_of (h2 d hd) (h3 d (by simp [hd])))

theorem written_names (fo : FloatOps F) (ms : List Str) : ∀ n, X.XName n → (∀ m ∈ ms, X.XName m) →
    Written fo (X.nameTok n :: ms.flatMap fun m => [.pathSep, X.nameTok m]) (namePath n ms) := by
  induction ms with
  | nil =>
    intro n hn _
    have hs := X.nameTok_spells fo (r := []) hn (X.not_begins_nil _) (by rintro ⟨t, h⟩; cases h)
    exact Written.cons (b := []) (fun c hc => by cases hc) hs.1 hs.2 (Written.nil (b := []) (fun c hc => by cases hc))
  | cons m ms ih =>
    intro n hn hm
    have hs := X.nameTok_spells fo (r := []) hn (X.not_begins_nil _) (by rintro ⟨t, h⟩; cases h)
    have ht := X.nameTok_name (F := F) n
    have he : X.Ends (X.nameTok (F := F) n) ('/' :: namePath m ms) := by
      refine X.ends_stop (by decide) ?_ (fun _ => by decide) ?_ _
      · intro o h
        rw [h] at ht
        exact ht.1
      · intro h
        rw [h] at ht
        exact ht.1.elim
    have hb : X.Ends (F := F) .pathSep (namePath m ms) := by
      refine X.ends_slash ?_ _
      obtain ⟨c, r, h1, _, h2⟩ := X.begins_name (hm m (by simp))
      exact ⟨c, r, h1, h2⟩
    have h2 := Written.cons (b := []) (fun c hc => by cases hc) (X.SpellsTok.pathSep (fo := fo)) hb
      (ih m (hm m (by simp)) (fun m' h' => hm m' (by simp [h'])))
    exact Written.cons (b := []) (fun c hc => by cases hc) hs.1 he h2

/-- The expression for a path of names. -/
def nameExpr (n : Str) (ms : List Str) : Expr F :=
  ms.foldl (fun e m => .slash e (.step .child (.name m))) (.step .child (.name n))

theorem list_snoc_induct {α} {P : List α → Prop} (h0 : P []) (h1 : ∀ l a, P l → P (l ++ [a])) (l : List α) : P l := by
  have : ∀ r : List α, P r.reverse := by
    intro r
    induction r with
    | nil => exact h0
    | cons a r ih => rw [List.reverse_cons]; exact h1 _ _ ih
  have := this l.reverse
  rwa [List.reverse_reverse] at this

theorem nameExpr_snoc (n m : Str) (ms : List Str) :
    nameExpr (F := F) n (ms ++ [m]) = .slash (nameExpr n ms) (.step .child (.name m)) := by
  simp [nameExpr]

theorem nameExpr_justNode (n : Str) (ms : List Str) : (nameExpr (F := F) n ms).isJustNode = false := by
  induction ms using list_snoc_induct with
  | h0 => rfl
  | h1 ms m _ => rw [nameExpr_snoc]; rfl

theorem gstep_name (b : Bool) (n : Str) : GStep (F := F) b [X.nameTok n] (.step .child (.name n)) := by
  have hn := X.nameTok_name (F := F) n
  have := GTest.name (b := b) hn.1
  rw [hn.2] at this
  exact .child this

theorem grel_names (b : Bool) (n : Str) (ms : List Str) :
    GRel (F := F) b (X.nameTok n :: ms.flatMap fun m => [.pathSep, X.nameTok m]) (nameExpr n ms) := by
  induction ms using list_snoc_induct with
  | h0 => exact .step (gstep_name b n)
  | h1 ms m ih =>
    rw [nameExpr_snoc, List.flatMap_append]
    exact .slash ih (gstep_name true m)

theorem parse_names (fo : FloatOps F) {n : Str} {ms : List Str} (h : ∀ m ∈ n :: ms, IsTestName m) :
    xparse fo (namePath n ms) = some (.ok (nameExpr n ms)) ∧
    xparse fo ('/' :: namePath n ms) = some (.ok (.abs (some (nameExpr n ms)))) ∧
    xparse fo ('/' :: '/' :: n) = some (.ok (.absAll (.step .child (.name n)))) := by
  have hw := written_names fo ms n (testName_xname (h n (by simp))) (fun m hm => testName_xname (h m (by simp [hm])))
  have hw1 := written_names fo [] n (testName_xname (h n (by simp))) (fun m hm => by cases hm)
  rw [show namePath n [] = n by simp [namePath]] at hw1
  have hb : X.Ends (F := F) .pathSep (namePath n ms) := by
    refine X.ends_slash ?_ _
    obtain ⟨c, r, h1, _, h2⟩ := X.begins_name (testName_xname (h n (by simp)))
    exact ⟨c, r, h1, h2⟩
  refine ⟨(C77_parser_follows_the_grammar fo _ _).mpr ⟨_, hw, _, _, _, .prim (.rel (grel_names false n ms))⟩,
    (C77_parser_follows_the_grammar fo _ _).mpr ⟨_, Written.cons (b := []) (fun c hc => by cases hc)
      (X.SpellsTok.pathSep (fo := fo)) hb hw, _, _, _, .prim (.abs (grel_names true n ms))⟩,
    (C77_parser_follows_the_grammar fo _ _).mpr ⟨_, Written.cons (b := []) (fun c hc => by cases hc)
      (X.SpellsTok.abbrevSep (fo := fo)) trivial hw1, _, _, _, .prim (.absAll (.step (gstep_name true n)))⟩⟩

theorem docLt_snoc2 : ∀ {p q : Path} {i j : Nat}, p.length = q.length → docLt p q → docLt (p ++ [i]) (q ++ [j])
  | [], [], _, _, _, h => by simp [docLt] at h
  | [], _ :: _, _, _, h, _ => by simp at h
  | _ :: _, [], _, _, h, _ => by simp at h
  | a :: p, b :: q, i, j, hl, h => by
    simp only [List.cons_append, docLt] at h ⊢
    rcases h with h | ⟨h1, h2⟩
    · exact .inl h
    · exact .inr ⟨h1, docLt_snoc2 (by simpa using hl) h2⟩

/-- One more step down. -/
theorem slash_name {E : Env F} (hd : E.doc.NoEmptyText) {n k : Nat} {e : Expr F} {x : Item F} {ps : List Path}
    (h : E.Yields n e x (ps.map .node)) (hp : ∀ p ∈ ps, E.doc.ElemAt p ∧ p.length = k) (ho : ps.Pairwise docLt) (m : Str) :
    ∃ qs : List Path, E.Yields n (.slash e (.step .child (.name m))) x (qs.map .node) ∧
      (∀ q, q ∈ qs ↔ ∃ p ∈ ps, ∃ i, q = p ++ [i] ∧ E.doc.Named m q) ∧
      (∀ q ∈ qs, E.doc.ElemAt q ∧ q.length = k + 1) ∧ qs.Pairwise docLt := by
  have hc : ∀ p : Path, ∃ cs : List Path, E.doc.ElemAt p →
      E.Yields n (.step .child (.name m)) (.node p) (cs.map .node) ∧
      (∀ q, q ∈ cs ↔ OnAxis .child p q ∧ E.doc.Named m q) ∧ cs.Pairwise docLt := by
    intro p
    by_cases he : E.doc.ElemAt p
    · obtain ⟨cs, h1, h2, h3⟩ := C47_name_tests E hd he n .child (by simp) m
      exact ⟨cs, fun _ => ⟨h1, h2, by simpa using h3⟩⟩
    · exact ⟨[], fun h => absurd h he⟩
  obtain ⟨f, hf⟩ := Classical.axiomOfChoice hc
  have hmem : ∀ q, q ∈ ps.flatMap f ↔ ∃ p ∈ ps, ∃ i, q = p ++ [i] ∧ E.doc.Named m q := by
    intro q
    rw [List.mem_flatMap]
    constructor
    · rintro ⟨p, h1, h2⟩
      obtain ⟨⟨i, h3⟩, h4⟩ := ((hf p (hp p h1).1).2.1 q).1 h2
      exact ⟨p, h1, i, h3, h4⟩
    · rintro ⟨p, h1, i, h3, h4⟩
      exact ⟨p, h1, ((hf p (hp p h1).1).2.1 q).2 ⟨⟨i, h3⟩, h4⟩⟩
  refine ⟨ps.flatMap f, ?_, hmem, ?_, ?_⟩
  · have := C45_steps_compose E n e (.step .child (.name m)) x (ps.map .node)
      (fun y => match y with | .node p => (f p).map .node | _ => []) h
      (fun y hy => by obtain ⟨p, _, rfl⟩ := List.mem_map.1 hy; exact truthy_node E.fo hd _)
      (fun y hy => by obtain ⟨p, hpm, rfl⟩ := List.mem_map.1 hy; exact (hf p (hp p hpm).1).1)
    rw [List.flatMap_map] at this
    rw [List.map_flatMap]
    exact this
  · intro q hq
    obtain ⟨p, h1, i, h3, h4⟩ := (hmem q).1 hq
    exact ⟨h4.elemAt, by rw [h3, List.length_append, (hp p h1).2]; rfl⟩
  · rw [List.pairwise_flatMap]
    refine ⟨fun p hpm => (hf p (hp p hpm).1).2.2, ?_⟩
    refine List.Pairwise.imp_of_mem ?_ ho
    intro a b ha hb hab x hx y hy
    obtain ⟨⟨i, rfl⟩, _⟩ := ((hf a (hp a ha).1).2.1 x).1 hx
    obtain ⟨⟨j, rfl⟩, _⟩ := ((hf b (hp b hb).1).2.1 y).1 hy
    exact docLt_snoc2 (by rw [(hp a ha).2, (hp b hb).2]) hab

theorem along_snoc {doc : Node} {p q : Path} {names : List Str} {m : Str} :
    doc.Along p (names ++ [m]) q ↔ ∃ q', doc.Along p names q' ∧ ∃ i, q = q' ++ [i] ∧ doc.Named m q := by
  constructor
  · rintro ⟨r, rfl, hl, hn⟩
    have hr : r ≠ [] := by rintro rfl; simp at hl
    obtain ⟨r', i, rfl⟩ : ∃ r' i, r = r' ++ [i] := ⟨r.dropLast, r.getLast hr, (List.dropLast_concat_getLast hr).symm⟩
    simp only [List.length_append, List.length_cons, List.length_nil] at hl
    refine ⟨p ++ r', ⟨r', rfl, by omega, ?_⟩, i, by simp, ?_⟩
    · intro j m' hj
      have hlt : j < names.length := (List.getElem?_eq_some_iff.1 hj).1
      have := hn j m' (by rw [List.getElem?_append_left hlt]; exact hj)
      rwa [List.take_append_of_le_length (by omega)] at this
    · have := hn names.length m (by simp)
      rwa [List.take_of_length_le (by simp; omega)] at this
  · rintro ⟨q', ⟨r, rfl, hl, hn⟩, i, rfl, hm⟩
    refine ⟨r ++ [i], by simp, by simp [hl], ?_⟩
    intro j m' hj
    by_cases hlt : j < names.length
    · rw [List.getElem?_append_left hlt] at hj
      rw [List.take_append_of_le_length (by omega)]
      exact hn j m' hj
    · have : j = names.length := by
        have := (List.getElem?_eq_some_iff.1 hj).1
        simp at this
        omega
      subst this
      simp at hj
      subst hj
      rw [List.take_of_length_le (by simp; omega), ← List.append_assoc]
      exact hm

/-- The expression for a path of names, from an element. -/
theorem names_from_element (E : Env F) (hd : E.doc.NoEmptyText) {p : Path} (hp : E.doc.ElemAt p) (n : Nat) (m : Str)
    (ms : List Str) : ∃ qs : List Path, E.Yields n (nameExpr m ms) (.node p) (qs.map .node) ∧
      (∀ q, q ∈ qs ↔ E.doc.Along p (m :: ms) q) ∧
      (∀ q ∈ qs, E.doc.ElemAt q ∧ q.length = p.length + (m :: ms).length) ∧ qs.Pairwise docLt := by
  induction ms using list_snoc_induct with
  | h0 =>
    obtain ⟨qs, h1, h2, h3⟩ := C47_name_tests E hd hp n .child (by simp) m
    refine ⟨qs, h1, ?_, ?_, by simpa using h3⟩
    · intro q
      rw [h2, show m :: [] = [] ++ [m] from rfl, along_snoc]
      constructor
      · rintro ⟨⟨i, rfl⟩, h⟩
        exact ⟨p, ⟨[], by simp, rfl, by simp⟩, i, rfl, h⟩
      · rintro ⟨q', ⟨r, rfl, hl, _⟩, i, rfl, h⟩
        have : r = [] := List.length_eq_zero_iff.1 hl
        subst this
        exact ⟨⟨i, by simp⟩, h⟩
    · intro q hq
      obtain ⟨⟨i, rfl⟩, h⟩ := (h2 q).1 hq
      exact ⟨h.elemAt, by simp⟩
  | h1 ms m' ih =>
    obtain ⟨qs, h1, h2, h3, h4⟩ := ih
    obtain ⟨qs', g1, g2, g3, g4⟩ := slash_name hd h1 h3 h4 m'
    refine ⟨qs', by rw [nameExpr_snoc]; exact g1, ?_, ?_, g4⟩
    · intro q
      rw [g2, ← List.cons_append, along_snoc]
      constructor
      · rintro ⟨p, hp, i, h⟩; exact ⟨p, (h2 p).1 hp, i, h⟩
      · rintro ⟨p, hp, i, h⟩; exact ⟨p, (h2 p).2 hp, i, h⟩
    · intro q hq
      refine ⟨(g3 q hq).1, ?_⟩
      rw [(g3 q hq).2]
      simp
      omega

theorem root_name (E : Env F) (hd : E.doc.NoEmptyText) (n : Nat) (m : Str) :
    E.doc.Named m [] ∧ E.Yields n (.step .child (.name m)) .root [.node []] ∨
    ¬ E.doc.Named m [] ∧ E.Yields n (.step .child (.name m)) .root [] := by
  by_cases h : E.doc.Named m []
  · refine .inl ⟨h, ?_⟩
    rw [Env.Yields, run_step, step_child_root E.fo hd]
    have h1 : (Test.name m).sel E.doc (.node [] : Item F) = true := sel_name.2 h
    have h2 : (Item.node [] : Item F).isElem E.doc = true := isElem_iff.2 h.elemAt
    simp [h1, h2]
  · refine .inr ⟨h, ?_⟩
    rw [Env.Yields, run_step, step_child_root E.fo hd]
    have h1 : (Test.name m).sel E.doc (.node [] : Item F) = false := by
      cases hs : (Test.name m).sel E.doc (.node [] : Item F) with
      | false => rfl
      | true => exact absurd (sel_name.1 hs) h
    simp [h1]

/-- The expression for a path of names, from the root. -/
theorem names_from_root (E : Env F) (hd : E.doc.NoEmptyText) (n : Nat) (m : Str)
    (ms : List Str) : ∃ qs : List Path, E.Yields n (nameExpr m ms) .root (qs.map .node) ∧
      (∀ q, q ∈ qs ↔ E.doc.Named m [] ∧ E.doc.Along [] ms q) ∧
      (∀ q ∈ qs, E.doc.ElemAt q ∧ q.length = ms.length) ∧ qs.Pairwise docLt := by
  induction ms using list_snoc_induct with
  | h0 =>
    have key : ∀ q, E.doc.Along [] [] q ↔ q = [] := by
      intro q
      constructor
      · rintro ⟨r, rfl, hl, _⟩
        simpa using List.length_eq_zero_iff.1 hl
      · rintro rfl
        exact ⟨[], rfl, rfl, by simp⟩
    rcases root_name E hd n m with ⟨h1, h2⟩ | ⟨h1, h2⟩
    · refine ⟨[[]], h2, ?_, ?_, by simp⟩
      · intro q; simp [key, h1]
      · intro q hq
        have : q = [] := by simpa using hq
        subst this
        exact ⟨h1.elemAt, rfl⟩
    · refine ⟨[], h2, ?_, by simp, by simp⟩
      intro q; simp [h1]
  | h1 ms m' ih =>
    obtain ⟨qs, h1, h2, h3, h4⟩ := ih
    obtain ⟨qs', g1, g2, g3, g4⟩ := slash_name hd h1 h3 h4 m'
    refine ⟨qs', by rw [nameExpr_snoc]; exact g1, ?_, ?_, g4⟩
    · intro q
      rw [g2, along_snoc]
      constructor
      · rintro ⟨p, hp, i, h⟩
        obtain ⟨a, b⟩ := (h2 p).1 hp
        exact ⟨a, p, b, i, h⟩
      · rintro ⟨a, p, hp, i, h⟩; exact ⟨p, (h2 p).2 ⟨a, hp⟩, i, h⟩
    · intro q hq
      refine ⟨(g3 q hq).1, ?_⟩
      rw [(g3 q hq).2]
      simp

/-- C84: a path of names `n/m₁/…/mₖ` asked of an element that has a parent yields, in document order and each once,
exactly the elements reached from it by going down along those names. -/
theorem C84_path_of_names (fo : FloatOps F) (vars : Str → Option (Item F)) (k : Nat) {doc : Node} (hd : doc.NoEmptyText)
    {p : Path} (hp : doc.ElemAt p) (hne : p ≠ []) (n : Str) (ms : List Str) (h : ∀ m ∈ n :: ms, IsTestName m) :
    ∃ qs : List Path, xmlXPath fo vars k doc p (.str (namePath n ms)) = ⟨qs.map .node, .done⟩ ∧
      (∀ q, q ∈ qs ↔ doc.Along p (n :: ms) q) ∧ qs.Pairwise docLt := by
  obtain ⟨qs, h1, h2, _, h3⟩ := names_from_element (queryEnv fo vars doc) hd hp k n ms
  refine ⟨qs, ?_, h2, h3⟩
  simp only [xmlXPath, parseText_eq (parse_names fo h).1, contextItem, if_neg hne]
  exact h1

/-- C84: asked of the top element the path begins with the name of that element itself. -/
theorem C84_path_of_names_top (fo : FloatOps F) (vars : Str → Option (Item F)) (k : Nat) {doc : Node} (hd : doc.NoEmptyText)
    (n : Str) (ms : List Str) (h : ∀ m ∈ n :: ms, IsTestName m) :
    ∃ qs : List Path, xmlXPath fo vars k doc [] (.str (namePath n ms)) = ⟨qs.map .node, .done⟩ ∧
      (∀ q, q ∈ qs ↔ doc.Named n [] ∧ doc.Along [] ms q) ∧ qs.Pairwise docLt := by
  obtain ⟨qs, h1, h2, _, h3⟩ := names_from_root (queryEnv fo vars doc) hd k n ms
  refine ⟨qs, ?_, h2, h3⟩
  simp only [xmlXPath, parseText_eq (parse_names fo h).1, contextItem, if_true]
  exact h1

/-- C84: with a slash before it the path begins at the top element wherever it is asked. -/
theorem C84_absolute_path_of_names (fo : FloatOps F) (vars : Str → Option (Item F)) (k : Nat) {doc : Node}
    (hd : doc.NoEmptyText) (n : Str) (ms : List Str) (h : ∀ m ∈ n :: ms, IsTestName m) :
    ∃ qs : List Path, (∀ p, doc.ElemAt p → xmlXPath fo vars k doc p (.str ('/' :: namePath n ms)) = ⟨qs.map .node, .done⟩) ∧
      (∀ q, q ∈ qs ↔ doc.Named n [] ∧ doc.Along [] ms q) ∧ qs.Pairwise docLt := by
  obtain ⟨qs, h1, h2, _, h3⟩ := names_from_root (queryEnv fo vars doc) hd k n ms
  refine ⟨qs, fun p hp => ?_, h2, h3⟩
  have hc : contextItem (F := F) p = .root ∨ ∃ q, contextItem (F := F) p = .node q ∧ (queryEnv fo vars doc).doc.ElemAt q := by
    unfold contextItem
    split
    · exact .inl rfl
    · exact .inr ⟨p, rfl, hp⟩
  simp only [xmlXPath, parseText_eq (parse_names fo h).2.1]
  rw [(C71_absolute_paths (queryEnv fo vars doc) k _ .root hc (.inl rfl)).1, run_abs, getRoot_root, bind_one,
    nameExpr_justNode]
  exact (append_done rfl).trans h1

/-- A document, its text, and queries on it. -/
def exQDoc : Node := .elem ['a'] [] [.elem ['b'] [] [.elem ['c'] [] []], .text ['x'], .elem ['b'] [] [.elem ['c'] [] [], .elem ['c'] [] []]]

theorem exQDoc_plain : exQDoc.NoEmptyText := noEmptyText_of (by decide) (by decide)

theorem exNames : ∀ m ∈ ['b'] :: [['c']], IsTestName m := by
  intro m hm
  rcases (by simpa using hm : m = ['b'] ∨ m = ['c']) with rfl | rfl
  · exact ⟨'b', [], rfl, by decide, by simp, by simp⟩
  · exact ⟨'c', [], rfl, by decide, by simp, by simp⟩

example : exQDoc.ElemAt [2] ∧ exQDoc.Along [] [['b'], ['c']] [2, 1] ∧
    xmlXPath noFloats (fun _ => none) 0 exQDoc [2] (.str "c".toList) = ⟨[.node [2, 0], .node [2, 1]], .done⟩ ∧
    xmlXPath noFloats (fun _ => none) 0 exQDoc [] (.str "a/b/c".toList) = ⟨[.node [0, 0], .node [2, 0], .node [2, 1]], .done⟩ := by
  refine ⟨⟨_, _, _, rfl⟩, ⟨[2, 1], rfl, rfl, ?_⟩, by with_unfolding_all rfl, by with_unfolding_all rfl⟩
  intro i m hm
  match i, hm with
  | 0, hm => cases hm; exact ⟨_, _, rfl⟩
  | 1, hm => cases hm; exact ⟨_, _, rfl⟩

/-! ### C85 -/

/-- C85, in part: it makes no difference to `xml_xpath` whether the expression is given as text or parsed; `qquery` with an
expression as text gives on an element what `xml_xpath` gives there, and on the text of a document what `xml_xpath` gives on
the top element of the parsed document.  Missing: `qquery` with a parsed expression, see below. -/
theorem C85_ways_to_ask_partial (fo : FloatOps F) (vars : Str → Option (Item F)) (n : Nat) (s : Str) :
    (∀ doc p x, xparse fo s = some (.ok x) → xmlXPath fo vars n doc p (.parsed x) = xmlXPath fo vars n doc p (.str s)) ∧
    (∀ doc p a, QQuery fo vars n (.elem doc p) (.str s) a ↔ a = .items doc (xmlXPath fo vars n doc p (.str s))) ∧
    (∀ e w a, IsDoc e w → (QQuery fo vars n (.str w) (.str s) a ↔ a = .items e (xmlXPath fo vars n e [] (.str s)))) := by
  refine ⟨?_, ?_, ?_⟩
  · intro doc p x hx
    simp only [xmlXPath, parseText_eq hx]
  · intro doc p a
    rfl
  · intro e w a h
    cases hx : xparse fo s with
    | none => rcases C78_parsing_ends fo s with ⟨_, h⟩ | h | ⟨h, _⟩ <;> rw [hx] at h <;> cases h
    | some r =>
      cases r with
      | ok x =>
        rw [C83_query_of_a_text fo vars n h hx]
        simp only [xmlXPath, parseText_eq hx, contextItem, if_true]
      | error er =>
        rw [C83_bad_expression fo vars n h hx]
        simp only [xmlXPath, parseText_eq hx]
        rfl

/-- The documented use of `qquery` with a parsed expression always raises a NameError, whatever the expression. -/
theorem C85_full_statement_is_false (fo : FloatOps F) (vars : Str → Option (Item F)) (n : Nat) (x : Expr F) :
    (∀ doc p a, QQuery fo vars n (.elem doc p) (.parsed x) a ↔ a = .items doc ⟨[], .err .name⟩) ∧
    (∀ e w a, IsDoc e w → (QQuery fo vars n (.str w) (.parsed x) a ↔ a = .items e ⟨[], .err .name⟩)) := by
  refine ⟨fun _ _ _ => Iff.rfl, fun e w a h => ?_⟩
  constructor
  · rintro ⟨h0, r, b', hp, ha⟩
    obtain ⟨i, hr, hi⟩ := C20_builder_builds_the_tree h hp
    subst hr
    obtain ⟨doc, hd, rfl⟩ := ha
    rw [rep_unique hd hi]
    rfl
  · rintro rfl
    obtain ⟨r, b', hp⟩ := treeParse_exists (Builder.new ⟨0, fun _ => none⟩) w
    obtain ⟨i, hr, hi⟩ := C20_builder_builds_the_tree h hp
    subst hr
    exact ⟨_, _, b', hp, e, hi, rfl⟩

/-! ### the whole way -/

/-- C83: the answer to `//name` on the text of a document: every element of that name in it, each once. -/
theorem C83_all_elements_of_a_name (fo : FloatOps F) (vars : Str → Option (Item F)) (n : Nat) {e : Node} {w : Str}
    (h : IsDoc e w) {m : Str} (hm : IsTestName m) : ∃ qs : List Path,
      (∀ a, QQuery fo vars n (.str w) (.str ('/' :: '/' :: m)) a ↔ a = .items e ⟨qs.map .node, .done⟩) ∧
      qs.Nodup ∧ ∀ q, q ∈ qs ↔ e.Named m q := by
  obtain ⟨qs, h1, h2, h3⟩ := C48_every_element_once (queryEnv fo vars e) (doc_noEmpty h) n .root (.inl rfl) m
  refine ⟨qs, fun a => ?_, h2, h3⟩
  rw [C83_query_of_a_text fo vars n h (parse_names fo (n := m) (ms := []) (by simpa using hm)).2.2 a]
  rw [show (queryEnv fo vars e).run n (.absAll (.step .child (.name m))) .root = _ from h1]

/-- C83: the answer to a path of names on the text of a document. -/
theorem C83_path_of_names (fo : FloatOps F) (vars : Str → Option (Item F)) (k : Nat) {e : Node} {w : Str}
    (h : IsDoc e w) (n : Str) (ms : List Str) (hm : ∀ m ∈ n :: ms, IsTestName m) : ∃ qs : List Path,
      (∀ a, QQuery fo vars k (.str w) (.str (namePath n ms)) a ↔ a = .items e ⟨qs.map .node, .done⟩) ∧
      (∀ q, q ∈ qs ↔ e.Named n [] ∧ e.Along [] ms q) ∧ qs.Pairwise docLt := by
  obtain ⟨qs, h1, h2, h3⟩ := C84_path_of_names_top fo vars k (doc_noEmpty h) n ms hm
  exact ⟨qs, fun a => by rw [(C85_ways_to_ask_partial fo vars k _).2.2 e w a h, h1], h2, h3⟩

/-- `<a><b/></a>`, with a start and an end tag for `b`. -/
theorem exQuery_doc : IsDoc (.elem ['a'] [] [.elem ['b'] [] []]) "<a><b></b></a>".toList := by
  have hb : IsContent [.elem ['b'] (dictOf []) []] "<b></b>".toList :=
    .elem (w0 := []) (w1 := []) (w2 := []) (w3 := []) (w4 := []) (wa := []) (wc := []) (w := [])
      (by decide) .nil .nil .nil (by decide) (by decide) (by decide) (by decide) (by decide)
  refine ⟨rfl, [], "<a><b></b></a>".toList, [], by decide, by decide, ?_, rfl⟩
  exact .elem (kvs := []) (w0 := []) (w1 := []) (w2 := []) (w3 := []) (w4 := []) (wa := []) (w := [])
      (by decide) .nil hb .nil (by decide) (by decide) (by decide) (by decide) (by decide)

example (a : Answer NoF) : QQuery noFloats (fun _ => none) 0 (.str "<a><b></b></a>".toList) (.str "a/b".toList) a ↔
    a = .items (.elem ['a'] [] [.elem ['b'] [] []]) ⟨[.node [0]], .done⟩ := by
  rw [(C85_ways_to_ask_partial noFloats (fun _ => none) 0 _).2.2 _ _ a exQuery_doc]
  have : xmlXPath noFloats (fun _ => none) 0 (.elem ['a'] [] [.elem ['b'] [] []]) [] (.str "a/b".toList) =
    ⟨[.node [0]], .done⟩ := by with_unfolding_all rfl
  rw [this]

example : xparse noFloats "a[".toList = some (.error .runtime) := by with_unfolding_all rfl

end Amara
