import Verif.Spec.QueryAttr
import Verif.Props.Query
import Verif.Props.XPathOps
import Verif.Props.MicroxRun
/-
Property C134: queries for elements with a given attribute or child, from end to end.
-/
namespace Amara

open X (xparse Written GStep GTest GRel GExpr GPreds GPrim SpellsTok Ends)

variable {F : Type}

/-! ### how the texts are read -/

theorem written_tok {fo : FloatOps F} {t : X.Tok F} {u r : Str} {ts : List (X.Tok F)} (hs : SpellsTok fo t u) (he : Ends t r)
    (hw : Written fo ts r) : Written fo (t :: ts) (u ++ r) :=
  Written.cons (b := []) (fun c hc => by cases hc) hs he hw

theorem written_nil {fo : FloatOps F} : Written fo [] [] := .nil fun c hc => by cases hc

theorem written_name {fo : FloatOps F} {n : Str} (h : IsTestName n) {c : Char} {r : Str} {ts : List (X.Tok F)}
    (hc : c ∈ X.stops) (hc' : c ≠ '-') (hw : Written fo ts (c :: r)) : Written fo (X.nameTok n :: ts) (n ++ c :: r) := by
  have he : Ends (F := F) (X.nameTok n) (c :: r) :=
    X.ends_stop hc (X.closing_nameTok n) (fun _ => hc') (fun h => by
      have := (X.nameTok_name (F := F) n).1
      rw [h] at this
      exact this.elim) r
  have := (X.nameTok_spells fo (testName_xname h) (r := []) (by rintro ⟨_, _, h, _⟩; cases h)
    (by rintro ⟨_, h⟩; cases h)).1
  exact written_tok this he hw

theorem written_last_name {fo : FloatOps F} {n : Str} (h : IsTestName n) : Written fo [X.nameTok n] n := by
  have := X.nameTok_spells fo (testName_xname h) (r := []) (by rintro ⟨_, _, h, _⟩; cases h) (by rintro ⟨_, h⟩; cases h)
  have := written_tok this.1 this.2 (written_nil (fo := fo))
  rwa [List.append_nil] at this

theorem gstep_attr (b : Bool) (n : Str) : GStep (F := F) b [.at, X.nameTok n] (.step .attribute (.name n)) := by
  have hn := X.nameTok_name (F := F) n
  have := GTest.name (b := true) hn.1
  rw [hn.2] at this
  exact .attr this

theorem parse_withAttr (fo : FloatOps F) {m k v : Str} (hm : IsTestName m) (hk : IsTestName k) (hv : '\'' ∉ v) :
    xparse fo (withAttrText m k v) = some (.ok (.pred (.absAll (.step .child (.name m)))
      [.eq (.step .attribute (.name k)) (.lit (.str v))])) := by
  refine (C77_parser_follows_the_grammar fo _ _).mpr
    ⟨[.abbrevSep, X.nameTok m] ++ (.lbrack :: (([.at, X.nameTok k] ++ .equal false :: [.literal v]) ++ [.rbrack])), ?_, ?_⟩
  · have h1 : Written fo [.rbrack] [']'] := written_tok .rbrack trivial written_nil
    have h2 : Written fo [.literal v, .rbrack] (('\'' :: (v ++ ['\''])) ++ [']']) := written_tok (.single hv) trivial h1
    rw [show ('\'' :: (v ++ ['\''])) ++ [']'] = '\'' :: (v ++ ['\'', ']']) by simp] at h2
    have h3 := written_tok (SpellsTok.eq (fo := fo)) trivial h2
    have h4 := written_name hk (by decide) (by decide) h3
    have h5 := written_tok (SpellsTok.at (fo := fo)) trivial h4
    have h6 := written_tok (SpellsTok.lbrack (fo := fo)) trivial h5
    have h7 := written_name hm (by decide) (by decide) h6
    exact written_tok (SpellsTok.abbrevSep (fo := fo)) trivial h7
  · have hg : GExpr (F := F) _ _ _ ([.at, X.nameTok k] ++ .equal false :: [.literal v]) _ :=
      GExpr.binary (s := 3) (.prim (.rel (.step (gstep_attr false k)))) rfl (.prim .literal) (by decide) (by decide)
      (fun h => h.elim) rfl
    exact ⟨_, _, _, GExpr.pred (.prim (.absAll (.step (gstep_name true m)))) (by decide) (GPreds.one hg)⟩

theorem parse_withChild (fo : FloatOps F) {m c : Str} (hm : IsTestName m) (hc : IsTestName c) :
    xparse fo (withChildText m c) = some (.ok (.pred (.absAll (.step .child (.name m))) [.step .child (.name c)])) := by
  refine (C77_parser_follows_the_grammar fo _ _).mpr
    ⟨[.abbrevSep, X.nameTok m] ++ (.lbrack :: ([X.nameTok c] ++ [.rbrack])), ?_, ?_⟩
  · have h1 : Written fo [.rbrack] [']'] := written_tok .rbrack trivial written_nil
    have h4 := written_name hc (by decide) (by decide) h1
    have h6 := written_tok (SpellsTok.lbrack (fo := fo)) trivial h4
    have h7 := written_name hm (by decide) (by decide) h6
    exact written_tok (SpellsTok.abbrevSep (fo := fo)) trivial h7
  · exact ⟨_, _, _, GExpr.pred (.prim (.absAll (.step (gstep_name true m)))) (by decide)
      (GPreds.one (.prim (.rel (.step (gstep_name false c)))))⟩

theorem parse_attrsOf (fo : FloatOps F) {m k : Str} (hm : IsTestName m) (hk : IsTestName k) :
    xparse fo (attrsOfText m k) = some (.ok (.absAll (.slash (.step .child (.name m)) (.step .attribute (.name k))))) := by
  refine (C77_parser_follows_the_grammar fo _ _).mpr
    ⟨.abbrevSep :: ([X.nameTok m] ++ .pathSep :: [.at, X.nameTok k]), ?_, ?_⟩
  · have h5 := written_tok (SpellsTok.at (fo := fo)) trivial (written_last_name hk)
    have h6 := written_tok (SpellsTok.pathSep (fo := fo)) (by rintro ⟨c, r, h, h'⟩; cases h; cases h') h5
    have h7 := written_name hm (by decide) (by decide) h6
    exact written_tok (SpellsTok.abbrevSep (fo := fo)) trivial h7
  · exact ⟨_, _, _, .prim (.absAll (.slash (.step (gstep_name true m)) (gstep_attr true k)))⟩

theorem parse_childrenOf (fo : FloatOps F) {m c : Str} (hm : IsTestName m) (hc : IsTestName c) :
    xparse fo (childrenOfText m c) = some (.ok (.absAll (.slash (.step .child (.name m)) (.step .child (.name c))))) := by
  refine (C77_parser_follows_the_grammar fo _ _).mpr
    ⟨.abbrevSep :: ([X.nameTok m] ++ .pathSep :: [X.nameTok c]), ?_, ?_⟩
  · have hb : X.Ends (F := F) .pathSep c := by
      obtain ⟨d, r, h1, _, h2⟩ := X.begins_name (testName_xname hc)
      rintro ⟨d', r', h3, h4⟩
      rw [h1] at h3
      cases h3
      exact h2 h4
    have h6 := written_tok (SpellsTok.pathSep (fo := fo)) hb (written_last_name hc)
    have h7 := written_name hm (by decide) (by decide) h6
    exact written_tok (SpellsTok.abbrevSep (fo := fo)) trivial h7
  · exact ⟨_, _, _, .prim (.absAll (.slash (.step (gstep_name true m)) (gstep_name true c)))⟩

theorem parse_attrs (fo : FloatOps F) {k : Str} (hk : IsTestName k) :
    xparse fo (attrsText k) = some (.ok (.absAll (.step .attribute (.name k)))) := by
  refine (C77_parser_follows_the_grammar fo _ _).mpr ⟨.abbrevSep :: [.at, X.nameTok k], ?_, ?_⟩
  · have h1 := written_tok (SpellsTok.abbrevSep (fo := fo)) trivial
      (written_tok (SpellsTok.at (fo := fo)) trivial (written_last_name hk))
    exact h1
  · exact ⟨_, _, _, .prim (.absAll (.step (gstep_attr true k)))⟩

theorem parse_attrsEq (fo : FloatOps F) {k v : Str} (hk : IsTestName k) (hv : '\'' ∉ v) :
    xparse fo (attrsEqText k v) = some (.ok (.pred (.absAll (.step .attribute (.name k))) [.eq .dot (.lit (.str v))])) := by
  refine (C77_parser_follows_the_grammar fo _ _).mpr
    ⟨(.abbrevSep :: [.at, X.nameTok k]) ++ (.lbrack :: (([.dot] ++ .equal false :: [.literal v]) ++ [.rbrack])), ?_, ?_⟩
  · have h1 : Written fo [.rbrack] [']'] := written_tok .rbrack trivial written_nil
    have h2 : Written fo [.literal v, .rbrack] (('\'' :: (v ++ ['\''])) ++ [']']) := written_tok (.single hv) trivial h1
    rw [show ('\'' :: (v ++ ['\''])) ++ [']'] = '\'' :: (v ++ ['\'', ']']) by simp] at h2
    have h3 := written_tok (SpellsTok.eq (fo := fo)) trivial h2
    have h4 := written_tok (SpellsTok.dot (fo := fo)) (X.ends_stop (t := .dot) (c := '=') (by decide)
      (fun o h => by cases h) (fun h => by cases h) (fun h => by cases h) _) h3
    have h6 := written_tok (SpellsTok.lbrack (fo := fo)) trivial h4
    have h7 := written_name hk (by decide) (by decide) h6
    have h8 := written_tok (SpellsTok.abbrevSep (fo := fo)) trivial (written_tok (SpellsTok.at (fo := fo)) trivial h7)
    exact h8
  · have hg : GExpr (F := F) _ _ _ ([.dot] ++ .equal false :: [.literal v]) _ :=
      GExpr.binary (s := 3) (.prim (.rel (.step .dot))) rfl (.prim .literal) (by decide) (by decide)
      (fun h => h.elim) rfl
    exact ⟨_, _, _, GExpr.pred (.prim (.absAll (.step (gstep_attr true k)))) (by decide) (GPreds.one hg)⟩

/-! ### what they yield -/

theorem dict_pairwise {as : Attrs} (h : (as.map (·.1)).Nodup) : as.Pairwise (fun a b => a.1 ≠ b.1) := by
  rwa [List.Nodup, List.pairwise_map] at h

theorem content_dicts {ns : List Node} {w : Str} (h : IsContent ns w) :
    ∀ x ∈ ns, ∀ p m as cs, x.at? p = some (.elem m as cs) → as.Pairwise (fun a b => a.1 ≠ b.1) := by
  induction h with
  | nil => intro x hx; cases hx
  | @text s raw ns w hs _ _ _ ih =>
    intro x hx
    rcases List.mem_cons.mp hx with rfl | hx
    · intro p m as cs
      cases p with
      | nil => intro h; cases h
      | cons i p => intro h; simp [Node.at?, Node.xmlChildren] at h
    · exact ih x hx
  | @elem n kvs wa cs wc ns w w0 w1 w2 w3 w4 _ _ _ _ _ _ _ _ _ ih1 ih2 =>
    intro x hx
    rcases List.mem_cons.mp hx with rfl | hx
    · intro p m as cs'
      cases p with
      | nil =>
        intro h
        cases h
        apply dict_pairwise
        have : (dictOf kvs).map (·.1) = firstNames kvs := by simp [dictOf, Function.comp_def]
        rw [this]; exact firstNames_nodup kvs
      | cons i p =>
        intro h
        simp only [Node.at?, Node.xmlChildren] at h
        cases hc : cs[i]? with
        | none => simp [hc] at h
        | some c =>
          simp only [hc] at h
          exact ih1 c (List.mem_of_getElem? hc) p _ _ _ h
    · exact ih2 x hx

/-- In a parsed document no element has two attributes of one name. -/
theorem doc_dicts {e : Node} {w : Str} (h : IsDoc e w) {p : Path} {m : Str} {as : Attrs} {cs : List Node}
    (hp : e.at? p = some (.elem m as cs)) : as.Pairwise (fun a b => a.1 ≠ b.1) := by
  obtain ⟨_, w0, w1, w2, _, _, h, _⟩ := h
  exact content_dicts h e (by simp) p m as cs hp

theorem testName_ne_star {k : Str} (h : IsTestName k) : k ≠ ['*'] := by
  rintro rfl
  obtain ⟨c, r, h1, h2, _⟩ := h
  cases h1
  revert h2
  decide +kernel

theorem pairwise_unique {as : Attrs} (h : as.Pairwise (fun a b => a.1 ≠ b.1)) {k v v' : Str} (h1 : (k, v) ∈ as)
    (h2 : (k, v') ∈ as) : v = v' := by
  induction as with
  | nil => cases h1
  | cons a as ih =>
    rw [List.pairwise_cons] at h
    rcases List.mem_cons.1 h1 with g1 | g1
    · subst g1
      rcases List.mem_cons.1 h2 with h2 | h2
      · cases h2; rfl
      · exact (h.1 _ h2 rfl).elim
    · rcases List.mem_cons.1 h2 with g2 | g2
      · subst g2
        exact (h.1 _ g1 rfl).elim
      · exact ih h.2 g1 g2

/-- The values of the attributes called `k` at a position. -/
def valuesAt (doc : Node) (k : Str) (q : Path) : List Str :=
  match doc.at? q with
  | some (.elem _ as _) => (as.filter fun kv => k = kv.1).map (·.2)
  | _ => []

theorem mem_valuesAt {doc : Node} {k v : Str} {q : Path} :
    v ∈ valuesAt doc k q ↔ ∃ m, doc.HasAttr m k v q := by
  unfold valuesAt
  split
  · rename_i m as cs h
    rw [List.mem_map]
    constructor
    · rintro ⟨⟨k', v'⟩, h1, rfl⟩
      rw [List.mem_filter] at h1
      have := of_decide_eq_true h1.2
      cases this
      exact ⟨m, as, cs, h, h1.1⟩
    · rintro ⟨m', as', cs', h', hm⟩
      rw [h] at h'
      cases h'
      exact ⟨(k, v), List.mem_filter.2 ⟨hm, by simp⟩, rfl⟩
  · rename_i hne
    constructor
    · intro h; cases h
    · rintro ⟨m', as', cs', h', hm⟩
      exact (hne m' as' cs' h').elim

theorem valuesAt_le {doc : Node} {k : Str} {q : Path}
    (h : ∀ m as cs, doc.at? q = some (.elem m as cs) → as.Pairwise (fun a b => a.1 ≠ b.1)) :
    (valuesAt doc k q).Nodup ∧ (valuesAt doc k q).length ≤ 1 := by
  have hl : (valuesAt doc k q).length ≤ 1 := by
    unfold valuesAt
    split
    · rename_i m as cs hq
      have h := h m as cs hq
      clear hq
      induction as with
      | nil => simp
      | cons a as ih =>
        rw [List.pairwise_cons] at h
        by_cases ha : k = a.1
        · rw [List.filter_cons_of_pos (by simpa using ha), List.filter_eq_nil_iff.2]
          · simp
          · intro b hb
            simp only [decide_eq_true_eq]
            rw [ha]
            exact h.1 b hb
        · rw [List.filter_cons_of_neg (by simpa using ha)]
          exact ih h.2
    · simp
  refine ⟨?_, hl⟩
  match hv : valuesAt doc k q with
  | [] => exact List.nodup_nil
  | [a] => simp
  | a :: b :: r => rw [hv] at hl; simp at hl

theorem run_attr (E : Env F) (n : Nat) (k : Str) (hk : k ≠ ['*']) (q : Path) :
    E.run n (.step .attribute (.name k)) (.node q) = ⟨(valuesAt E.doc k q).map fun v => .attr q k v, .done⟩ := by
  rw [run_step]
  simp only [stepRes, valuesAt]
  cases hq : E.doc.at? q with
  | none => rfl
  | some y =>
    cases y with
    | text s => rfl
    | elem m as cs =>
      have hk' : ¬ k = "*".toList := hk
      simp only [Test.theName, hk', false_or, List.map_map]
      congr 1
      apply List.map_congr_left
      intro kv hkv
      have := of_decide_eq_true (List.mem_filter.1 hkv).2
      simp [this]

/-- `//l/r` is `r` from each item of `//l`. -/
theorem run_absAll_slash (E : Env F) (hd : E.doc.NoEmptyText) (n : Nat) (m : Str) (r : Expr F) :
    E.run n (.absAll (.slash (.step .child (.name m)) r)) .root =
      (E.run n (.absAll (.step .child (.name m))) .root).bind (E.run n r) := by
  have hr : (Item.root : Item F).getRoot E.doc = Res.one .root := rfl
  rw [run_absAll, run_absAll, hr, bind_one, bind_one]
  have key : ∀ y : Item F, (y = .root ∨ ∃ q, y = .node q ∧ E.doc.Has q) →
      E.run n (.slash (.step .child (.name m)) r) y = (E.run n (.step .child (.name m)) y).bind (E.run n r) ∧
      (E.run n (.step .child (.name m)) y).tail = .done := by
    intro y hy
    have : ∃ ps : List Path, E.run n (.step .child (.name m)) y = ⟨ps.map .node, .done⟩ := by
      rcases hy with rfl | ⟨q, rfl, hq⟩
      · exact ⟨_, by rw [run_step, step_child_root E.fo hd]⟩
      · exact ⟨_, by rw [run_step, step_child_any E.fo hd hq]⟩
    obtain ⟨ps, h⟩ := this
    refine ⟨?_, by rw [h]⟩
    rw [run_slash, h]
    apply bindList_congr
    intro z hz
    obtain ⟨q, _, rfl⟩ := List.mem_map.1 hz
    rw [orElse_truthy (truthy_node E.fo hd q)]
  have hb : (Item.root : Item F).below E.doc = some (.node [] :: (E.doc.under []).map .node) := rfl
  rw [hb]
  have h0 : (Expr.slash (.step .child (.name m)) r).isJustNode = false := rfl
  have h1 : (Expr.step (F := F) .child (.name m)).isJustNode = false := rfl
  simp only [h0, h1, Bool.false_eq_true, if_false]
  rw [bind_append _ _ _ rfl, bind_append _ _ _ (key _ (.inl rfl)).2, (key _ (.inl rfl)).1]
  congr 1
  congr 1
  rw [bindList_bind]
  apply bindList_congr
  intro z hz
  have : ∃ q, z = .node q ∧ E.doc.Has q := by
    rcases List.mem_cons.1 hz with rfl | hz
    · exact ⟨[], rfl, _, rfl⟩
    · obtain ⟨q, hq, rfl⟩ := List.mem_map.1 hz
      exact ⟨q, rfl, ((mem_under (p := []) rfl q).1 hq).2⟩
  obtain ⟨q, rfl, hq⟩ := this
  rw [orElse_truthy (truthy_node E.fo hd q)]
  exact (key _ (.inr ⟨q, rfl, hq⟩)).1

/-- `//@k`, from the root. -/
theorem run_absAll_attr (E : Env F) (hd : E.doc.NoEmptyText) (n : Nat) (k : Str) (hk : k ≠ ['*']) :
    E.run n (.absAll (.step .attribute (.name k))) .root =
      ⟨(([] :: E.doc.under []).flatMap fun q => (valuesAt E.doc k q).map fun v => (q, v)).map
        (fun a => .attr a.1 k a.2), .done⟩ := by
  have hr : (Item.root : Item F).getRoot E.doc = Res.one .root := rfl
  have hb : (Item.root : Item F).below E.doc = some (.node [] :: (E.doc.under []).map .node) := rfl
  have h1 : (Expr.step (F := F) .attribute (.name k)).isJustNode = false := rfl
  rw [run_absAll, hr, bind_one, hb]
  simp only [h1, Bool.false_eq_true, if_false]
  rw [show (Item.node [] : Item F) :: (E.doc.under []).map .node = ([] :: E.doc.under []).map .node from rfl]
  rw [bindList_done (g := fun z => match z with
      | .node q => (valuesAt E.doc k q).map fun v => .attr q k v
      | _ => [])]
  · rw [List.flatMap_map, List.map_flatMap]
    simp only [List.map_map]
    have h2 : E.run n (.step .attribute (.name k)) .root = Res.nil := by rw [run_step]; rfl
    rw [h2]
    rfl
  · intro z hz
    obtain ⟨q, hq, rfl⟩ := List.mem_map.1 hz
    rw [orElse_truthy (truthy_node E.fo hd q), run_attr E n k hk]

/-! ### C134 -/

theorem run_withAttr (E : Env F) (hd : E.doc.NoEmptyText) (n : Nat) (k v : Str) (hk : k ≠ ['*'])
    (hu : ∀ p m as cs, E.doc.at? p = some (.elem m as cs) → as.Pairwise (fun a b => a.1 ≠ b.1))
    (l : Expr F) (ps : List Path) (h : E.Yields n l .root (ps.map .node)) :
    ∃ qs : List Path, E.Yields n (.pred l [.eq (.step .attribute (.name k)) (.lit (.str v))]) .root (qs.map .node) ∧
      qs.Sublist ps ∧ ∀ q, q ∈ qs ↔ q ∈ ps ∧ ∃ m, E.doc.HasAttr m k v q := by
  have hb : ∀ y : Item F, ∃ b : Bool, ∀ q, y = .node q →
      E.Yields n (.eq (.step .attribute (.name k)) (.lit (.str v))) y [.bool b] ∧
      (b = true ↔ ∃ m, E.doc.HasAttr m k v q) := by
    intro y
    by_cases hy : ∃ q, y = .node q
    · obtain ⟨q, rfl⟩ := hy
      have hl := (valuesAt_le (k := k) (hu q)).2
      obtain ⟨b, h1, h2⟩ := C52_equality_partial E n (.step .attribute (.name k)) (.node q) _ v (run_attr E n k hk q)
        (by simpa using hl) (fun y hy => by obtain ⟨_, _, rfl⟩ := List.mem_map.1 hy; trivial)
      refine ⟨b, fun q' hq' => ?_⟩
      cases hq'
      refine ⟨h1, h2.trans ?_⟩
      rw [← mem_valuesAt]
      constructor
      · rintro ⟨y, hy, hs⟩
        obtain ⟨v', hv', rfl⟩ := List.mem_map.1 hy
        cases hs
        exact hv'
      · intro hv
        exact ⟨_, List.mem_map.2 ⟨v, hv, rfl⟩, rfl⟩
    · exact ⟨false, fun q hq => (hy ⟨q, hq⟩).elim⟩
  obtain ⟨b, hb⟩ := Classical.axiomOfChoice hb
  have := C50_boolean_predicate E n l (.eq (.step .attribute (.name k)) (.lit (.str v))) .root (ps.map .node) .done h
    (fun y hy => by obtain ⟨q, _, rfl⟩ := List.mem_map.1 hy; exact truthy_node E.fo hd q)
    (fun y => [.bool (b y)])
    (fun y hy => by obtain ⟨q, _, rfl⟩ := List.mem_map.1 hy; exact (hb _ q rfl).1)
    (fun y hy => trivial) b (fun y hy => Iff.rfl)
  refine ⟨ps.filter fun q => b (.node q), ?_, List.filter_sublist, fun q => ?_⟩
  · rw [Env.Yields, this, List.filter_map]
    rfl
  · rw [List.mem_filter, (hb (.node q) q rfl).2]

/-- C134: `//m[@k='v']` on the text of a document: of the elements `//m` gives, those with that attribute of that value, in
the same order. -/
theorem C134_elements_with_attribute (fo : FloatOps F) (vars : Str → Option (Item F)) (n : Nat) {e : Node} {w : Str} (h : IsDoc e w)
    {m k v : Str} (hm : IsTestName m) (hk : IsTestName k) (hv : '\'' ∉ v) :
    ∃ ps qs : List Path,
      (∀ a, QQuery fo vars n (.str w) (.str ('/' :: '/' :: m)) a ↔ a = .items e ⟨ps.map .node, .done⟩) ∧
      (∀ a, QQuery fo vars n (.str w) (.str (withAttrText m k v)) a ↔ a = .items e ⟨qs.map .node, .done⟩) ∧
      qs.Sublist ps ∧ qs.Nodup ∧ ∀ q, q ∈ qs ↔ e.HasAttr m k v q := by
  obtain ⟨ps, h1, h2, h3⟩ := C48_every_element_once (queryEnv fo vars e) (doc_noEmpty h) n .root (.inl rfl) m
  obtain ⟨qs, g1, g2, g3⟩ := run_withAttr (queryEnv fo vars e) (doc_noEmpty h) n k v (testName_ne_star hk)
    (fun p m as cs hp => doc_dicts h hp) _ ps h1
  refine ⟨ps, qs, fun a => ?_, fun a => ?_, g2, g2.nodup h2, fun q => ?_⟩
  · rw [C83_query_of_a_text fo vars n h (parse_names fo (n := m) (ms := []) (by simpa using hm)).2.2, h1]
  · rw [C83_query_of_a_text fo vars n h (parse_withAttr fo hm hk hv), g1]
  · rw [g3, h3]
    constructor
    · rintro ⟨⟨as, cs, h1⟩, m', as', cs', h2, h3⟩
      rw [show (queryEnv fo vars e).doc = e from rfl] at h1 h2
      rw [h1] at h2
      cases h2
      exact ⟨as, cs, h1, h3⟩
    · rintro ⟨as, cs, h1, h2⟩
      exact ⟨⟨as, cs, h1⟩, m, as, cs, h1, h2⟩

/-- C134: `//m[c]`: the elements with a child of that name. -/
theorem C134_elements_with_child (fo : FloatOps F) (vars : Str → Option (Item F)) (n : Nat) {e : Node} {w : Str} (h : IsDoc e w)
    {m c : Str} (hm : IsTestName m) (hc : IsTestName c) :
    ∃ ps qs : List Path,
      (∀ a, QQuery fo vars n (.str w) (.str ('/' :: '/' :: m)) a ↔ a = .items e ⟨ps.map .node, .done⟩) ∧
      (∀ a, QQuery fo vars n (.str w) (.str (withChildText m c)) a ↔ a = .items e ⟨qs.map .node, .done⟩) ∧
      qs.Sublist ps ∧ qs.Nodup ∧ ∀ q, q ∈ qs ↔ e.Named m q ∧ ∃ i, e.Named c (q ++ [i]) := by
  obtain ⟨ps, h1, h2, h3⟩ := C48_every_element_once (queryEnv fo vars e) (doc_noEmpty h) n .root (.inl rfl) m
  have hg : ∀ y : Item F, ∃ g : List Path, ∀ q, y = .node q → q ∈ ps →
      (queryEnv fo vars e).Yields n (.step .child (.name c)) y (g.map .node) ∧
      ∀ z, z ∈ g ↔ OnAxis .child q z ∧ e.Named c z := by
    intro y
    by_cases hy : ∃ q, y = .node q ∧ q ∈ ps
    · obtain ⟨q, rfl, hq⟩ := hy
      obtain ⟨g, g1, g2, _⟩ := C47_name_tests (queryEnv fo vars e) (doc_noEmpty h) ((h3 q).1 hq).elemAt n .child (by simp) c
      exact ⟨g, fun q' hq' _ => by cases hq'; exact ⟨g1, g2⟩⟩
    · exact ⟨[], fun q h1 h2 => (hy ⟨q, h1, h2⟩).elim⟩
  obtain ⟨g, hg⟩ := Classical.axiomOfChoice hg
  have hne := doc_noEmpty h
  have := C50_boolean_predicate (queryEnv fo vars e) n (.absAll (.step .child (.name m))) (.step .child (.name c)) .root
    (ps.map .node) .done h1
    (fun y hy => by obtain ⟨q, _, rfl⟩ := List.mem_map.1 hy; exact truthy_node fo hne q)
    (fun y => (g y).map .node)
    (fun y hy => by obtain ⟨q, hq, rfl⟩ := List.mem_map.1 hy; exact (hg _ q rfl hq).1)
    (fun y hy => by
      show NotNumber ((g y).map Item.node)
      cases g y <;> trivial)
    (fun y => !(g y).isEmpty) (fun y hy => by
      show _ ↔ (queryEnv fo vars e).Ebv ((g y).map Item.node)
      cases g y with
      | nil => simp [Env.Ebv]
      | cons z r =>
        simp only [List.isEmpty_cons, Bool.not_false, List.map_cons, Env.Ebv, true_iff]
        exact hne z)
  refine ⟨ps, ps.filter fun q => !(g (.node q)).isEmpty, fun a => ?_, fun a => ?_, List.filter_sublist,
    List.filter_sublist.nodup h2, fun q => ?_⟩
  · rw [C83_query_of_a_text fo vars n h (parse_names fo (n := m) (ms := []) (by simpa using hm)).2.2, h1]
  · rw [C83_query_of_a_text fo vars n h (parse_withChild fo hm hc), this, List.filter_map]
    rfl
  · rw [List.mem_filter, h3]
    have hq : e.Named m q → ((!(g (.node q)).isEmpty) = true ↔ ∃ i, e.Named c (q ++ [i])) := by
      intro hq
      have hz := (hg (.node q) q rfl ((h3 q).2 hq)).2
      constructor
      · intro hx
        cases hgq : g (.node q) with
        | nil => rw [hgq] at hx; cases hx
        | cons z r =>
          obtain ⟨⟨i, rfl⟩, h5⟩ := (hz z).1 (by rw [hgq]; simp)
          exact ⟨i, h5⟩
      · rintro ⟨i, hi⟩
        have := (hz (q ++ [i])).2 ⟨⟨i, rfl⟩, hi⟩
        cases hgq : g (.node q) with
        | nil => rw [hgq] at this; cases this
        | cons z r => rfl
    constructor
    · rintro ⟨h4, h5⟩; exact ⟨h4, (hq h4).1 h5⟩
    · rintro ⟨h4, h5⟩; exact ⟨h4, (hq h4).2 h5⟩

/-- C134: `//m/@k`: the attributes called `k` of the elements called `m`, each once. -/
theorem C134_attributes_of_elements (fo : FloatOps F) (vars : Str → Option (Item F)) (n : Nat) {e : Node} {w : Str} (h : IsDoc e w)
    {m k : Str} (hm : IsTestName m) (hk : IsTestName k) :
    ∃ as : List (Path × Str),
      (∀ a, QQuery fo vars n (.str w) (.str (attrsOfText m k)) a ↔ a = .items e ⟨as.map fun a => .attr a.1 k a.2, .done⟩) ∧
      (as.map (·.1)).Nodup ∧ ∀ q v, (q, v) ∈ as ↔ e.HasAttr m k v q := by
  obtain ⟨ps, h1, h2, h3⟩ := C48_every_element_once (queryEnv fo vars e) (doc_noEmpty h) n .root (.inl rfl) m
  refine ⟨ps.flatMap fun q => (valuesAt e k q).map fun v => (q, v), fun a => ?_, ?_, fun q v => ?_⟩
  · have hq : (queryEnv fo vars e).doc = e := rfl
    rw [C83_query_of_a_text fo vars n h (parse_attrsOf fo hm hk), run_absAll_slash _ (doc_noEmpty h), h1, Res.bind,
      bindList_done (g := fun z => match z with
        | .node q => (valuesAt e k q).map fun v => .attr q k v
        | _ => [])]
    · rw [List.flatMap_map, List.map_flatMap]
      simp only [List.map_map]
      rfl
    · intro z hz
      obtain ⟨q, _, rfl⟩ := List.mem_map.1 hz
      rw [run_attr _ n k (testName_ne_star hk)]
      rfl
  · rw [List.map_flatMap, List.Nodup, List.pairwise_flatMap]
    constructor
    · intro q _
      have := (valuesAt_le (doc := e) (k := k) (q := q) (fun m as cs hp => doc_dicts h hp)).2
      match hv : valuesAt e k q with
      | [] => simp
      | [a] => simp
      | a :: b :: r => rw [hv] at this; simp at this
    · refine List.Pairwise.imp ?_ h2
      intro a b hab u hu v hv huv
      simp only [List.map_map, List.mem_map, Function.comp] at hu hv
      obtain ⟨_, _, rfl⟩ := hu
      obtain ⟨_, _, rfl⟩ := hv
      exact hab huv
  · rw [List.mem_flatMap]
    constructor
    · rintro ⟨q', hq', hx⟩
      obtain ⟨v', hv', hx⟩ := List.mem_map.1 hx
      cases hx
      obtain ⟨m', as', cs', g1, g2⟩ := mem_valuesAt.1 hv'
      obtain ⟨as, cs, g3⟩ := (h3 q).1 hq'
      rw [show (queryEnv fo vars e).doc = e from rfl, g1] at g3
      cases g3
      exact ⟨_, _, g1, g2⟩
    · rintro ⟨as, cs, g1, g2⟩
      exact ⟨q, (h3 q).2 ⟨as, cs, g1⟩, List.mem_map.2 ⟨v, mem_valuesAt.2 ⟨m, as, cs, g1, g2⟩, rfl⟩⟩

/-- C134: `//m/c`: the elements called `c` that are children of elements called `m`, each once. -/
theorem C134_children_of_elements (fo : FloatOps F) (vars : Str → Option (Item F)) (n : Nat) {e : Node} {w : Str} (h : IsDoc e w)
    {m c : Str} (hm : IsTestName m) (hc : IsTestName c) :
    ∃ qs : List Path,
      (∀ a, QQuery fo vars n (.str w) (.str (childrenOfText m c)) a ↔ a = .items e ⟨qs.map .node, .done⟩) ∧
      qs.Nodup ∧ ∀ q, q ∈ qs ↔ e.Named c q ∧ ∃ p i, q = p ++ [i] ∧ e.Named m p := by
  obtain ⟨ps, h1, h2, h3⟩ := C48_every_element_once (queryEnv fo vars e) (doc_noEmpty h) n .root (.inl rfl) m
  have hg : ∀ q : Path, ∃ g : List Path, q ∈ ps →
      (queryEnv fo vars e).Yields n (.step .child (.name c)) (.node q) (g.map .node) ∧
      (∀ z, z ∈ g ↔ OnAxis .child q z ∧ e.Named c z) ∧ g.Nodup := by
    intro q
    by_cases hq : q ∈ ps
    · obtain ⟨g, g1, g2, g3⟩ := C47_name_tests (queryEnv fo vars e) (doc_noEmpty h) ((h3 q).1 hq).elemAt n .child (by simp) c
      exact ⟨g, fun _ => ⟨g1, g2, nodup_of_docLt (by simpa using g3)⟩⟩
    · exact ⟨[], fun h => (hq h).elim⟩
  obtain ⟨g, hg⟩ := Classical.axiomOfChoice hg
  refine ⟨ps.flatMap g, fun a => ?_, ?_, fun q => ?_⟩
  · rw [C83_query_of_a_text fo vars n h (parse_childrenOf fo hm hc), run_absAll_slash _ (doc_noEmpty h), h1, Res.bind,
      bindList_done (g := fun z => match z with
        | .node q => (g q).map .node
        | _ => [])]
    · rw [List.flatMap_map, List.map_flatMap]
    · intro z hz
      obtain ⟨q, hq, rfl⟩ := List.mem_map.1 hz
      exact (hg q hq).1
  · rw [List.Nodup, List.pairwise_flatMap]
    refine ⟨fun q hq => (hg q hq).2.2, ?_⟩
    have : ps.Pairwise fun a b => a ∈ ps ∧ b ∈ ps ∧ a ≠ b := by
      rw [List.pairwise_iff_forall_sublist]
      intro a b hab
      exact ⟨hab.subset (by simp), hab.subset (by simp), (List.pairwise_iff_forall_sublist.1 h2) hab⟩
    refine List.Pairwise.imp ?_ this
    rintro a b ⟨ha, hb, hab⟩ u hu v hv huv
    subst huv
    obtain ⟨⟨i, hi⟩, _⟩ := ((hg a ha).2.1 u).1 hu
    obtain ⟨⟨j, hj⟩, _⟩ := ((hg b hb).2.1 u).1 hv
    rw [hi] at hj
    exact hab (List.append_inj' hj rfl).1
  · rw [List.mem_flatMap]
    constructor
    · rintro ⟨p, hp, hq⟩
      obtain ⟨⟨i, hi⟩, hn⟩ := ((hg p hp).2.1 q).1 hq
      exact ⟨hn, p, i, hi, (h3 p).1 hp⟩
    · rintro ⟨hn, p, i, rfl, hp⟩
      exact ⟨p, (h3 p).2 hp, ((hg p ((h3 p).2 hp)).2.1 _).2 ⟨⟨i, rfl⟩, hn⟩⟩

theorem run_attrsEq (E : Env F) (n : Nat) (k v : Str) (as : List (Path × Str))
    (hr : E.run n (.absAll (.step .attribute (.name k))) .root = ⟨as.map fun a => .attr a.1 k a.2, .done⟩) :
    E.run n (.pred (.absAll (.step .attribute (.name k))) [.eq .dot (.lit (.str v))]) .root =
      ⟨(as.filter fun a => a.2 = v).map fun a => .attr a.1 k a.2, .done⟩ := by
  have hb : ∀ y : Item F, ∃ b : Bool, ∀ q k' v', y = .attr q k' v' →
      E.Yields n (.eq .dot (.lit (.str v))) y [.bool b] ∧ (b = true ↔ v' = v) := by
    intro y
    by_cases hy : ∃ q k' v', y = .attr q k' v'
    · obtain ⟨q, k', v', rfl⟩ := hy
      obtain ⟨b, g1, g2⟩ := C52_equality_partial E n .dot (.attr q k' v') [.attr q k' v'] v (run_dot _ _ _)
        (by simp) (fun y hy => by rw [List.mem_singleton.1 hy]; trivial)
      refine ⟨b, fun _ _ _ hh => ?_⟩
      cases hh
      exact ⟨g1, g2.trans (by simp [Env.strVal])⟩
    · exact ⟨false, fun q k' v' hh => (hy ⟨q, k', v', hh⟩).elim⟩
  obtain ⟨b, hb⟩ := Classical.axiomOfChoice hb
  have := C50_boolean_predicate E n (.absAll (.step .attribute (.name k))) (.eq .dot (.lit (.str v))) .root _ .done hr
    (fun y hy => by obtain ⟨q, _, rfl⟩ := List.mem_map.1 hy; rfl)
    (fun y => [.bool (b y)])
    (fun y hy => by obtain ⟨q, _, rfl⟩ := List.mem_map.1 hy; exact (hb _ _ _ _ rfl).1)
    (fun y hy => trivial) b (fun y hy => Iff.rfl)
  rw [this, List.filter_map]
  have : (as.filter (b ∘ fun a => Item.attr a.1 k a.2)) = as.filter fun a => decide (a.2 = v) := by
    apply List.filter_congr
    intro a _
    have := (hb _ a.1 k a.2 rfl).2
    rw [Bool.eq_iff_iff, decide_eq_true_eq]
    exact this
  rw [this]

/-- C134: `//@k`: all attributes of that name in the document, in document order, and `//@k[.='v']` those of them with that
value; never an element. -/
theorem C134_attributes_anywhere (fo : FloatOps F) (vars : Str → Option (Item F)) (n : Nat) {e : Node} {w : Str} (h : IsDoc e w)
    {k v : Str} (hk : IsTestName k) (hv : '\'' ∉ v) :
    ∃ as : List (Path × Str),
      (∀ a, QQuery fo vars n (.str w) (.str (attrsText k)) a ↔ a = .items e ⟨as.map fun a => .attr a.1 k a.2, .done⟩) ∧
      (∀ a, QQuery fo vars n (.str w) (.str (attrsEqText k v)) a ↔
        a = .items e ⟨(as.filter fun a => a.2 = v).map fun a => .attr a.1 k a.2, .done⟩) ∧
      (as.Pairwise fun a b => docLt a.1 b.1) ∧ ∀ q v, (q, v) ∈ as ↔ ∃ m, e.HasAttr m k v q := by
  have hr := run_absAll_attr (queryEnv fo vars e) (doc_noEmpty h) n k (testName_ne_star hk)
  rw [show (queryEnv fo vars e).doc = e from rfl] at hr
  generalize has : (([] :: e.under []).flatMap fun q => (valuesAt e k q).map fun v => (q, v)) = as at hr
  refine ⟨as, fun a => ?_, fun a => ?_, ?_, fun q v => ?_⟩
  · rw [C83_query_of_a_text fo vars n h (parse_attrs fo hk), hr]
  · rw [C83_query_of_a_text fo vars n h (parse_attrsEq fo hk hv), run_attrsEq _ n k v as hr]
  · rw [← has, List.pairwise_flatMap]
    constructor
    · intro q _
      have := (valuesAt_le (doc := e) (k := k) (q := q) (fun m as cs hp => doc_dicts h hp)).2
      match hv : valuesAt e k q with
      | [] => simp
      | [a] => simp
      | a :: b :: r => rw [hv] at this; simp at this
    · have ho : ([] :: e.under []).Pairwise docLt := by
        refine List.pairwise_cons.2 ⟨fun q hq => ?_, under_order.1 _ _⟩
        obtain ⟨⟨r, h1, h2⟩, _⟩ := (mem_under (doc := e) (p := []) rfl q).1 hq
        rw [List.nil_append] at h2
        subst h2
        cases q with
        | nil => exact (h1 rfl).elim
        | cons i r => simp [docLt]
      refine List.Pairwise.imp ?_ ho
      intro a b hab u hu v hv
      obtain ⟨_, _, rfl⟩ := List.mem_map.1 hu
      obtain ⟨_, _, rfl⟩ := List.mem_map.1 hv
      exact hab
  · rw [← has, List.mem_flatMap]
    constructor
    · rintro ⟨q', hq', hx⟩
      obtain ⟨v', hv', hx⟩ := List.mem_map.1 hx
      cases hx
      exact mem_valuesAt.1 hv'
    · intro hx
      refine ⟨q, ?_, List.mem_map.2 ⟨v, mem_valuesAt.2 hx, rfl⟩⟩
      obtain ⟨m, as, cs, g1, _⟩ := hx
      rw [List.mem_cons, mem_under (p := []) rfl]
      cases q with
      | nil => exact .inl rfl
      | cons j r => exact .inr ⟨⟨j :: r, by simp, rfl⟩, _, g1⟩

/-- C134, the command line tool: `--expr="//@k[.='v']"`, which its documentation says prints the elements with that attribute,
prints a line `{="v"}` for each of them and nothing else; and with `--foreach` and a name it raises AttributeError as
soon as there is one. -/
theorem C134_microx_prints_attributes (fo : FloatOps F) (n : Nat) {s : List XCall × Bool} {d : Node} (hs : SourceOf s d)
    (hd : d.NoEmptyText) {k v c : Str} (hk : IsTestName k) (hv : '\'' ∉ v) (hc : IsTestName c) :
    ∃ ps : List Path, (∀ q, q ∈ ps ↔ ∃ m, d.HasAttr m k v q) ∧
      (∀ out, MicroxRun fo n { command := .expr (attrsEqText k v) } [s] out ↔
        out = ⟨ps.map fun _ => "{=\"".toList ++ v ++ "\"}".toList, .tail .done⟩) ∧
      (∀ out, MicroxRun fo n { command := .expr (attrsEqText k v), foreach := some c } [s] out ↔
        out = ⟨[], .tail (if ps = [] then .done else .err .attribute)⟩) := by
  have hr := run_absAll_attr (queryEnv fo (fun _ => none) d) hd n k (testName_ne_star hk)
  rw [show (queryEnv fo (fun _ => none) d).doc = d from rfl] at hr
  generalize has : (([] :: d.under []).flatMap fun q => (valuesAt d k q).map fun v => (q, v)) = as at hr
  have hr' := run_attrsEq _ n k v as hr
  have hf : ∀ a ∈ as.filter (fun a => a.2 = v), a.2 = v := fun a ha => of_decide_eq_true (List.mem_filter.1 ha).2
  have hm : ∀ q, (∃ a ∈ as.filter (fun a => a.2 = v), a.1 = q) ↔ ∃ m, d.HasAttr m k v q := by
    intro q
    rw [← mem_valuesAt]
    constructor
    · rintro ⟨a, ha, rfl⟩
      have g1 := (List.mem_filter.1 ha).1
      rw [← has, List.mem_flatMap] at g1
      obtain ⟨q, _, g2⟩ := g1
      obtain ⟨v', g3, rfl⟩ := List.mem_map.1 g2
      have := hf _ ha
      cases this
      exact g3
    · intro hx
      refine ⟨(q, v), List.mem_filter.2 ⟨?_, by simp⟩, rfl⟩
      rw [← has, List.mem_flatMap]
      refine ⟨q, ?_, List.mem_map.2 ⟨v, hx, rfl⟩⟩
      obtain ⟨m, as, cs, g1, _⟩ := mem_valuesAt.1 hx
      rw [List.mem_cons, mem_under (p := []) rfl]
      cases q with
      | nil => exact .inl rfl
      | cons j r => exact .inr ⟨⟨j :: r, by simp, rfl⟩, _, g1⟩
  generalize as.filter (fun a => decide (a.2 = v)) = bs at hr' hf hm
  refine ⟨bs.map (·.1), fun q => by rw [List.mem_map]; exact hm q, fun out => ?_, fun out => ?_⟩
  · rw [C94_command_expr fo n _ rfl rfl (parseText_eq (parse_attrsEq fo hk hv)) .none hs]
    have : ∀ l : List (Path × Str), (∀ a ∈ l, a.2 = v) →
        printAll fo d .done (l.map fun a => .attr a.1 k a.2) = ⟨(l.map (·.1)).map fun _ => "{=\"".toList ++ v ++ "\"}".toList, .done⟩ := by
      intro l hl
      induction l with
      | nil => rfl
      | cons a l ih =>
        rw [List.map_cons, printAll, ih fun a ha => hl a (by simp [ha])]
        have ha := hl a (by simp)
        simp only [Item.printed, ha, Printed.append, List.map_cons]
        rfl
    simp only [printedInTurn, runExpr, printResult, Option.map_none, hr', this bs hf, List.append_nil]
  · have hp := (parse_names fo (n := c) (ms := []) (by simpa using hc)).1
    rw [show namePath c [] = c by simp [namePath]] at hp
    have hne : c ≠ [] := by
      rintro rfl
      obtain ⟨_, _, h, _⟩ := hc
      cases h
    rw [C94_command_expr fo n _ rfl rfl (parseText_eq (parse_attrsEq fo hk hv)) (ForeachIs.some (s := c) hne (parseText_eq hp)) hs]
    · cases bs with
      | nil => simp only [printedInTurn, runExpr, printResult, Option.map_some, hr', List.map_nil, printForeach]; rfl
      | cons a bs =>
        have hs : (queryEnv fo (fun _ => none) d).run n (nameExpr c []) (.attr a.1 k a.2) = ⟨[], .err .attribute⟩ := by
          show (queryEnv fo (fun _ => none) d).run n (.step .child (.name c)) (.attr a.1 k a.2) = _
          rw [run_step]
          rfl
        simp only [printedInTurn, runExpr, printResult, Option.map_some, hr', List.map_cons, printForeach, hs, printAll,
          Printed.append]
        rfl

/-- A document and names that meet the hypotheses. -/
example : IsDoc (.elem ['a'] [] [.elem ['b'] [] []]) "<a><b></b></a>".toList ∧ IsTestName ['b'] ∧ '\'' ∉ "2".toList :=
  ⟨exQuery_doc, ⟨'b', [], rfl, by decide +kernel, by simp, by decide +kernel⟩, by decide⟩

/-- Two of these queries on `<a k="1"><b k="1"/><b k="2"/></a>`. -/
example : (queryEnv noFloats (fun _ => none) (.elem ['a'] [(['k'], ['1'])] [.elem ['b'] [(['k'], ['1'])] [], .elem ['b'] [(['k'], ['2'])] []])).run 0
      (.pred (.absAll (.step .child (.name ['b']))) [.eq (.step .attribute (.name ['k'])) (.lit (.str ['2']))]) .root =
        ⟨[.node [1]], .done⟩ ∧
    (queryEnv noFloats (fun _ => none) (.elem ['a'] [(['k'], ['1'])] [.elem ['b'] [(['k'], ['1'])] [], .elem ['b'] [(['k'], ['2'])] []])).run 0
      (.pred (.absAll (.step .attribute (.name ['k']))) [.eq .dot (.lit (.str ['1']))]) .root =
        ⟨[.attr [] ['k'] ['1'], .attr [0] ['k'] ['1']], .done⟩ :=
  ⟨by with_unfolding_all rfl, by with_unfolding_all rfl⟩

/-- The texts of these queries. -/
example : withAttrText "record".toList "id".toList "2".toList = "//record[@id='2']".toList ∧
    withChildText "record".toList "name".toList = "//record[name]".toList ∧
    attrsOfText "record".toList "id".toList = "//record/@id".toList ∧
    childrenOfText "record".toList "name".toList = "//record/name".toList ∧
    attrsText "id".toList = "//@id".toList ∧ attrsEqText "id".toList "2".toList = "//@id[.='2']".toList := by
  decide +kernel

/-- `<db><record id="2"><name>Bob</name></record></db>` -/
def exDb : Node := .elem "db".toList [] [.elem "record".toList [("id".toList, "2".toList)] [.elem "name".toList [] [.text "Bob".toList]]]

/-- What the tool prints for a command on that document. -/
def exDbPrints (c : Command) (fe : Option Str) : Option Printed :=
  match c.parse noFloats, parseForeach noFloats fe with
  | .ok c, .ok f => some (processPartition noFloats 0 [] c f exDb)
  | _, _ => none

/-- C134, the examples in the documentation of the tool that do not do what it says: the record with a given id, its name, and
the ids together with the names. -/
theorem C134_documented_examples_fail :
    exDbPrints (.expr "//@id[.='2']".toList) none = some ⟨["{=\"2\"}".toList], .done⟩ ∧
    exDbPrints (.expr "//@id[.='2']".toList) (some "name".toList) = some ⟨[], .err .attribute⟩ ∧
    exDbPrints (.match_ "name".toList) (some "@id|name".toList) = some ⟨[], .done⟩ ∧
    exDbPrints (.match_ "name".toList) (some "concat(@id, ': ', name)".toList) = some ⟨[": ".toList], .done⟩ := by
  decide +kernel

/-- What does it: the same with `//record[@id='2']` and `--match=record`. -/
theorem C134_what_to_write_instead :
    exDbPrints (.expr "//record[@id='2']".toList) none = some ⟨["<record id=\"2\"><name>Bob</name></record>".toList], .done⟩ ∧
    exDbPrints (.expr "//record[@id='2']".toList) (some "name".toList) = some ⟨["<name>Bob</name>".toList], .done⟩ ∧
    exDbPrints (.match_ "record".toList) (some "concat(@id, ': ', name)".toList) = some ⟨["2: Bob".toList], .done⟩ := by
  decide +kernel

end Amara
