import Verif.Lemmas.Html5
/-
Properties of the HTML tree adapter: the names html5lib reads back, copies, child lists assigned as a whole, and the
shape of trees that html5lib builds.
-/
namespace Amara

/-! ### C106 -/

theorem qnameToLocal_id {q : Str} (h : ':' ∉ q) : qnameToLocal q = q := by
  unfold qnameToLocal
  have : ∀ r : Str, ':' ∉ r → r.takeWhile (· ≠ ':') = r := by
    intro r
    induction r with
    | nil => intro _; rfl
    | cons c r ih =>
      intro hc
      simp only [List.mem_cons, not_or] at hc
      rw [List.takeWhile_cons, if_pos (by simpa using fun h => hc.1 h.symm), ih hc.2]
  rw [this _ (by simpa using h), List.reverse_reverse]

theorem colon_not_in_local {q : Str} : ':' ∉ qnameToLocal q := by
  unfold qnameToLocal
  intro h
  rw [List.mem_reverse] at h
  have := List.all_takeWhile (p := fun c : Char => decide (c ≠ ':')) (l := q.reverse)
  rw [List.all_eq_true] at this
  simpa using this _ h

/-- **C106**, exactly: html5lib reads back the namespace and the name it gave for a new element if and only if there
is no colon in the name, and the namespace was None or, without `use_xhtml_ns`, that of XHTML. -/
theorem C106_name_tuple_exactly (use : Bool) (name ns : Option Str) :
    (eclass use name ns).nameTuple = (ns, name) ↔
      (∀ n, name = some n → ':' ∉ n) ∧
      (ns = none ∨ (use = false ∧ ns = some "http://www.w3.org/1999/xhtml".toList)) := by
  change _ ↔ _ ∧ (ns = none ∨ (use = false ∧ ns = some xhtmlNamespace))
  have hun : ':' ∉ unnamed := by decide +kernel
  have hfn : falsy none = true := rfl
  by_cases hxh : (!use && ns == some xhtmlNamespace) = true
  · -- an HTML element
    obtain ⟨h1, h2⟩ : use = false ∧ ns = some xhtmlNamespace := by simpa using hxh
    subst h1 h2
    cases hf : falsy name with
    | true =>
      have : (eclass false name (some xhtmlNamespace)).nameTuple = (some xhtmlNamespace, name) := by
        simp [eclass, hf, hun, H5Names.nameTuple, H5Names.namespace, H5Names.name]
      rw [this]
      refine ⟨fun _ => ⟨fun n hn => ?_, Or.inr ⟨rfl, rfl⟩⟩, fun _ => rfl⟩
      subst hn
      cases n with
      | nil => simp
      | cons c r => cases hf
    | false =>
      cases name with
      | none => cases hf
      | some n =>
        by_cases hc : ':' ∈ n
        · constructor
          · intro h
            exfalso
            simp [eclass, hf, hc, hfn, H5Names.nameTuple, H5Names.namespace, H5Names.name] at h
          · intro h
            exact absurd hc (h.1 n rfl)
        · constructor
          · intro h
            exact ⟨fun m hm => by cases hm; exact hc, Or.inr ⟨rfl, rfl⟩⟩
          · intro h
            simp [eclass, hf, hc, qnameToLocal_id hc, H5Names.nameTuple, H5Names.namespace, H5Names.name]
  · have hns : (ns = none ∨ (use = false ∧ ns = some xhtmlNamespace)) ↔ ns = none := by
      constructor
      · rintro (h | ⟨h1, h2⟩)
        · exact h
        · exact absurd (by simp [h1, h2]) hxh
      · exact Or.inl
    rw [hns]
    cases hf : falsy name with
    | true =>
      have : (eclass use name ns).nameTuple = (none, name) := by
        simp only [eclass, if_neg hxh, hf, if_true]
        simp [hun, H5Names.nameTuple, H5Names.namespace, H5Names.name]
      rw [this]
      constructor
      · intro h
        simp only [Prod.mk.injEq, and_true] at h
        refine ⟨fun n hn => ?_, h.symm⟩
        subst hn
        cases n with
        | nil => simp
        | cons c r => cases hf
      · intro h; rw [h.2]
    | false =>
      cases name with
      | none => cases hf
      | some n =>
        have hname : (eclass use (some n) ns).name = some (qnameToLocal n) := by
          simp [eclass, hf, H5Names.name]
        by_cases hc : ':' ∈ n
        · constructor
          · intro h
            exfalso
            have h2 : (eclass use (some n) ns).name = some n := congrArg Prod.snd h
            rw [hname] at h2
            exact colon_not_in_local (q := n) (by rw [Option.some.inj h2]; exact hc)
          · intro h
            exact absurd hc (h.1 n rfl)
        · have : (eclass use (some n) ns).namespace = none := by
            simp only [eclass, if_neg hxh, hf]
            simp [hc, H5Names.namespace]
          have ht : (eclass use (some n) ns).nameTuple = (none, some n) := by
            rw [H5Names.nameTuple, this, hname, qnameToLocal_id hc]
          rw [ht]
          constructor
          · intro h
            simp only [Prod.mk.injEq, and_true] at h
            exact ⟨fun m hm => by cases hm; exact hc, h.symm⟩
          · intro h; rw [h.2]

/-- **C106** for HTML elements as html5lib makes them: the names of the HTML standard have no colon and are in the
XHTML namespace. Missing: names with a colon, and SVG and MathML elements. -/
theorem C106_html_names_partial (name : Str) (hn : ':' ∉ name) :
    (eclass false (some name) (some "http://www.w3.org/1999/xhtml".toList)).nameTuple =
      (some "http://www.w3.org/1999/xhtml".toList, some name) :=
  (C106_name_tuple_exactly _ _ _).2 ⟨fun _ h => by cases h; exact hn, Or.inr ⟨rfl, rfl⟩⟩

/-- C106 in full is false: for an SVG element the namespace reads None; the element for the tag `o:p` passes for `p`. -/
theorem C106_full_statement_is_false :
    (eclass false (some "svg".toList) (some "http://www.w3.org/2000/svg".toList)).nameTuple = (none, some "svg".toList) ∧
    (eclass false (some "o:p".toList) (some xhtmlNamespace)).nameTuple = (none, some "p".toList) := by
  decide +kernel

/-- The `xml_name` is the one of C74, whatever the namespace. -/
theorem C106_xml_name (use : Bool) (name ns : Option Str) : (eclass use name ns).xmlName = eclassName name := by
  cases name with
  | none => rfl
  | some n => cases n <;> rfl

example : ':' ∉ "table".toList ∧ (eclass false (some "table".toList) (some xhtmlNamespace)).xmlName = "table".toList := by
  decide +kernel

/-! ### C107 -/

/-- **C107** in memory: a copy is a new object with the same name and attributes, no parent and no children, and every
tree in memory stays as it is. Missing: `C107_names`. -/
theorem C107_clone_partial {h : Heap} (hs : HSteps Heap.empty h) {e : Id} {n : Str} {as : Attrs} {cs : List Id}
    {p : Option Id} (he : h.obj e = some (.elem n as cs p)) :
    ∃ x h', h.cloneNode e = .ok (x, h') ∧ h.obj x = none ∧ Rep h' none x (.elem n as []) ∧
      ∀ q i t, Rep h q i t → Rep h' q i t := by
  refine ⟨h.next, _, by simp only [Heap.cloneNode, he]; rfl, next_free (bounded_html hs), ?_,
    fun q i t ht => (rep_alloc (bounded_html hs) _).1 t q i ht⟩
  refine ⟨[], none, by simp [Heap.alloc_obj'], ?_, List.nodup_nil, rfl⟩
  simp [Heap.xmlParent, Heap.alloc_obj', Obj.link, Heap.deref]

/-- What html5lib reads of a copy: the same `xml_name`; no namespace. -/
theorem C107_names (e : H5Names) : e.clone.xmlName = e.xmlName ∧ e.clone.nameTuple = (none, some e.xmlName) :=
  ⟨rfl, rfl⟩

/-- C107 in full is false: no HTML element has the same name tuple as its copy. -/
theorem C107_full_statement_is_false (name : Str) (hn : ':' ∉ name) :
    (eclass false (some name) (some xhtmlNamespace)).clone.nameTuple ≠
      (eclass false (some name) (some xhtmlNamespace)).nameTuple := by
  have h := C106_html_names_partial name hn
  change (eclass false (some name) (some xhtmlNamespace)).nameTuple = (some xhtmlNamespace, some name) at h
  rw [h, (C107_names _).2]
  simp

example : ∃ x h', exPara.cloneNode 0 = .ok (x, h') ∧ x = 2 ∧ Rep h' none 0 (.elem ['p'] [] [.text ['x']]) := by
  obtain ⟨x, h', h1, h2, h3, h4⟩ := C107_clone_partial exPara_made (e := 0) (n := ['p']) (as := []) (cs := [1])
    (p := none) rfl
  refine ⟨x, h', h1, ?_, h4 _ _ _ ⟨[1], none, rfl, rfl, by decide, 1, [], rfl, ⟨some 0, rfl, rfl⟩, rfl⟩⟩
  have : exPara.cloneNode 0 = .ok (2, (exPara.newElement ['p'] []).2) := rfl
  rw [this] at h1
  cases h1; rfl

/-! ### C108 -/

/-- **C108.** `e.childNodes = nodes` succeeds, and then the children of `e` are `nodes`, in order: elements themselves,
a new text for a text, an empty one for a comment, all with `e` as `xml_parent`. The other child lists and the other
parents stay. -/
theorem C108_child_nodes_are_set {h : Heap} (hs : HSteps Heap.empty h) {e : Id} (he : h.isElem e)
    {nodes : List HChild} (hn : ∀ k, .node k ∈ nodes → (h.obj k).isSome) :
    ∃ h' xs, h.setChildNodes e nodes = .ok h' ∧ h'.children e = xs ∧ StandAs h h' e nodes xs ∧
      (∀ j, j ≠ e → h'.children j = h.children j) ∧ (∀ j, j ∉ xs → h'.xmlParent j = h.xmlParent j) := by
  obtain ⟨n, as, cs, p, heo⟩ := he
  obtain ⟨h1, h2, h3, h4, h5, h6⟩ := setChildren_links ⟨n, as, cs, p, heo⟩ []
  have hb := bounded_setChildren (bounded_html hs) e []
  obtain ⟨h', hok⟩ := appendAll_total hb ((h5 e).2 ⟨n, as, cs, p, heo⟩) (cs := nodes)
    (fun k hk => by rw [h4]; exact hn k hk)
  obtain ⟨xs, hxs⟩ := appendedAll hb hok
  refine ⟨h', xs, by simp only [Heap.setChildNodes, heo]; exact hok, by rw [hxs.list, h1]; rfl, ?_, ?_, ?_⟩
  · exact standAs_back h4 h5 h6 hxs.stand
  · intro j hj
    rw [hxs.others j hj]
    simp only [Heap.children, h2 j hj]
  · intro j hj; rw [hxs.parents j hj, h3]

/-- A child that is left out keeps its `xml_parent`. -/
theorem C108_former_children {h h' : Heap} (hs : HSteps Heap.empty h) {e c : Id} {nodes : List HChild}
    (hok : h.setChildNodes e nodes = .ok h') (hc : h.xmlParent c = some e) : h'.xmlParent c = some e := by
  unfold Heap.setChildNodes at hok
  split at hok
  · rename_i n as cs p heo
    obtain ⟨h1, h2, h3, h4, h5, h6⟩ := setChildren_links ⟨n, as, cs, p, heo⟩ []
    obtain ⟨xs, hxs⟩ := appendedAll (bounded_setChildren (bounded_html hs) e []) hok
    exact hxs.parent c (by rw [h3]; exact hc)
  · cases hok

/-- `<p>x</p>` is given its own text and a comment as children: two new texts. -/
example : ∃ h', exPara.setChildNodes 0 [.node 1, .comment ['!']] = .ok h' ∧ h'.children 0 = [2, 3] ∧
    h'.obj 2 = some (.text ['x'] (some 0)) ∧ h'.obj 3 = some (.text [] (some 0)) ∧ h'.xmlParent 1 = some 0 :=
  ⟨_, rfl, by decide, by decide, by decide, by decide⟩

/-- `hasContent`: whether there are children. -/
theorem C108_has_content (h : Heap) (e : Id) : h.hasContent e = true ↔ ∃ c, c ∈ h.children e := by
  unfold Heap.hasContent
  cases h.children e with
  | nil => simp
  | cons c r => simp

/-! ### C109 -/

/-- **C109.** Moving the children of `e` to `f` as html5lib does it succeeds; `e` is left with none, and `f` has,
after its own, those of `e` in order (texts as copies), with `f` as `xml_parent`. -/
theorem C109_children_are_moved {h : Heap} (hs : HSteps Heap.empty h) {e f : Id} (he : h.isElem e) (hf : h.isElem f)
    (hne : e ≠ f) :
    ∃ h' xs, MovesChildren h e f h' ∧ h'.children e = [] ∧ h'.children f = h.children f ++ xs ∧
      StandAs h h' f ((h.children e).map .node) xs ∧
      (∀ j, j ≠ e → j ≠ f → h'.children j = h.children j) ∧ (∀ j, j ∉ xs → h'.xmlParent j = h.xmlParent j) := by
  have hb := bounded_html hs
  obtain ⟨h1, h1ok⟩ := appendAll_total hb hf (cs := (h.children e).map .node)
    (fun k hk => by
      obtain ⟨d, hd, hdk⟩ := List.mem_map.1 hk
      cases hdk
      exact live_html hs e k hd)
  obtain ⟨xs, hxs⟩ := appendedAll hb h1ok
  obtain ⟨n, as, cs, p, heo⟩ := (hxs.elems e).2 he
  obtain ⟨k1, k2, k3, k4, k5, k6⟩ := setChildren_links ⟨n, as, cs, p, heo⟩ []
  refine ⟨h1.setChildren e [], xs, ⟨h1, h1ok, by simp only [Heap.setChildNodes, heo]; rfl⟩, k1, ?_, ?_, ?_, ?_⟩
  · rw [← hxs.list]; simp only [Heap.children, k2 f (Ne.symm hne)]
  · exact standAs_forth k3 k6 hxs.stand
  · intro j hj hjf
    rw [← hxs.others j hjf]
    simp only [Heap.children, k2 j hj]
  · intro j hj; rw [k3, hxs.parents j hj]

/-- `<p>x</p>` and `<q/>`. -/
def exParas : Heap := (exPara.newElement ['q'] []).2

theorem exParas_made : HSteps Heap.empty exParas := .newElement exPara_made

example : ∃ h', MovesChildren exParas 0 2 h' ∧ h'.children 0 = [] ∧ h'.children 2 = [3] ∧
    h'.obj 3 = some (.text ['x'] (some 2)) ∧ exParas.isElem 0 ∧ exParas.isElem 2 :=
  ⟨_, ⟨_, rfl, rfl⟩, by decide, by decide, by decide, ⟨_, _, _, _, rfl⟩, ⟨_, _, _, _, rfl⟩⟩

/-! ### C110 -/

theorem once_tidy {h : Heap} (ht : TidySteps Heap.empty h) : HSteps Heap.empty h ∧ ListedOnceBut none h := by
  induction ht with
  | refl => exact ⟨.refl, fun f c _ hc => by simp [Heap.children, Heap.empty] at hc⟩
  | newElement _ ih => exact ⟨.newElement ih.1, once_alloc (bounded_html ih.1) ih.2 _ rfl⟩
  | newText _ ih => exact ⟨.newText ih.1, once_alloc (bounded_html ih.1) ih.2 _ rfl⟩
  | clone _ hok ih =>
    refine ⟨.clone ih.1 hok, ?_⟩
    unfold Heap.cloneNode at hok
    split at hok
    · cases hok; exact once_alloc (bounded_html ih.1) ih.2 _ rfl
    · cases hok
  | append _ hfree hok ih =>
    refine ⟨.append ih.1 hok, ?_⟩
    obtain ⟨c, k, hk⟩ := inserted (bounded_html ih.1) hok
    exact once_inserted ih.2 hk (free_child hfree)
  | before _ hfree hok ih =>
    refine ⟨.before ih.1 hok, once_before (bounded_html ih.1) ih.2 hfree hok⟩
  | @text h' h'' e s r _ hok ih =>
    refine ⟨.text ih.1 hok, ?_⟩
    have app : h'.xmlInsert e (.str s) (-1) = .ok h'' → ListedOnceBut none h'' := fun hok => by
      obtain ⟨c, k, hk⟩ := inserted (bounded_html ih.1) hok
      exact once_inserted ih.2 hk (by intro d hd; cases hd)
    cases r with
    | none => exact app hok
    | some r =>
      simp only [Heap.insertText] at hok
      split at hok
      · exact once_before (bounded_html ih.1) ih.2 (by intro k hk; cases hk) hok
      · exact app hok
  | remove _ hok ih =>
    refine ⟨.remove ih.1 hok, ?_⟩
    unfold Heap.removeChild at hok
    split at hok
    · cases hok; exact once_setChildren ih.2 (fun _ => List.eraseP_sublist)
    · cases hok
  | @move h' h'' e f _ hef hmv ih =>
    obtain ⟨h1, h1ok, h2ok⟩ := hmv
    have hsteps : HSteps Heap.empty h1 := steps_appendAll ih.1 h1ok
    refine ⟨.children hsteps h2ok, ?_⟩
    have hb := bounded_html ih.1
    have hbut : ListedOnceBut (some e) h1 := by
      refine once_appendAll hb (fun f c _ hc => ih.2 f c (by simp) hc) ?_ ?_ hef h1ok
      · cases hcs : h'.children e with
        | nil => exact List.nodup_nil
        | cons a r => rw [← hcs]; exact (ih.2 e a (by simp) (by rw [hcs]; simp)).2
      · intro d hd
        refine ⟨live_html ih.1 e d hd, fun _ g hg hm => hg ?_⟩
        have h3 := (ih.2 e d (by simp) hd).1
        rw [(ih.2 g d (by simp) hm).1] at h3
        exact Option.some.inj h3
    unfold Heap.setChildNodes at h2ok
    split at h2ok
    · rename_i n as cs p heo
      cases h2ok
      have hnew := once_setChildren hbut (e := e) (cs := []) (fun h => absurd rfl h)
      have hnil := (setChildren_links (h := h1) (e := e) ⟨n, as, cs, p, heo⟩ []).1
      intro g c _ hc
      by_cases hge : g = e
      · rw [hge, hnil] at hc; cases hc
      · exact hnew g c (fun h => hge (Option.some.inj h)) hc
    · cases h2ok
  | release _ hr ih =>
    refine ⟨.release ih.1 hr, once_release ih.2 hr⟩

/-- **C110.** In every history in which html5lib takes an element out of its list before it puts it into another one, and
moves children only as a whole, whatever an element lists has that element as `xml_parent` and is listed once. -/
theorem C110_listed_once {h : Heap} (ht : TidySteps Heap.empty h) : ListedOnce h :=
  fun e c hc => (once_tidy ht).2 e c (by simp) hc

/-- So no node is in two places. -/
theorem C110_one_place {h : Heap} (ht : TidySteps Heap.empty h) {e f c : Id} (he : c ∈ h.children e)
    (hf : c ∈ h.children f) : e = f := by
  have h1 := (C110_listed_once ht e c he).1
  rw [(C110_listed_once ht f c hf).1] at h1
  exact (Option.some.inj h1).symm

/-- And an element below which there are no infinite descents - one that is not below itself, say - is a tree. -/
theorem C110_is_a_tree {h : Heap} (ht : TidySteps Heap.empty h) {e : Id} (he : (h.obj e).isSome)
    (hacc : Acc (fun c e => c ∈ h.children e) e) : ∃ t, Rep h (h.xmlParent e) e t := by
  induction hacc with
  | intro e _ ih =>
    cases ho : h.obj e with
    | none => rw [ho] at he; cases he
    | some o =>
      cases o with
      | text s p => exact ⟨.text s, p, ho, rfl⟩
      | elem n as cs p =>
        have hce : h.children e = cs := by simp [Heap.children, ho, Obj.kids]
        have hnd : cs.Nodup := by
          cases hcs : cs with
          | nil => exact List.nodup_nil
          | cons a r => rw [← hcs, ← hce]; exact (C110_listed_once ht e a (by rw [hce, hcs]; simp)).2
        have : ∀ ds : List Id, (∀ d ∈ ds, d ∈ cs) → ∃ ts, RepList h e ds ts := by
          intro ds
          induction ds with
          | nil => intro _; exact ⟨[], rfl⟩
          | cons d ds ih2 =>
            intro hd
            have hdm : d ∈ h.children e := by rw [hce]; exact hd d (by simp)
            have hp := (C110_listed_once ht e d hdm).1
            obtain ⟨t, h1⟩ := ih d hdm (live_html (once_tidy ht).1 e d hdm)
            obtain ⟨ts, h2⟩ := ih2 (fun x hx => hd x (List.mem_cons_of_mem _ hx))
            rw [hp] at h1
            exact ⟨t :: ts, d, ds, rfl, h1, h2⟩
        obtain ⟨ts, hts⟩ := this cs (fun _ h => h)
        exact ⟨.elem n as ts, cs, p, ho, rfl, hnd, hts⟩

/-- A tidy history: `<p><b/></p>`, the `b` is taken out and put into `<q/>`; before that it has `p` as parent. -/
example : ∃ h1 h2 h3 : Heap, TidySteps Heap.empty h3 ∧ h1.children 0 = [1] ∧ h2.xmlParent 1 = some 0 ∧
    h3.children 0 = [] ∧ h3.children 2 = [1] ∧ h3.xmlParent 1 = some 2 := by
  let a := (((Heap.empty.newElement ['p'] []).2.newElement ['b'] []).2.newElement ['q'] []).2
  have ta : TidySteps Heap.empty a := .newElement (.newElement (.newElement .refl))
  have un : ∀ (h : Heap) (c : Id), TidySteps Heap.empty h → h.next = 3 → (∀ f : Nat, f < 3 → c ∉ h.children f) →
      Free h (.node c) := by
    intro h c ht hn h1 k hk _ f hm
    cases hk
    obtain ⟨o, ho, _⟩ := obj_some_of_children hm
    have hlt := (bounded_html (once_tidy ht).1 f o ho).1
    rw [hn] at hlt
    exact h1 f hlt hm
  obtain ⟨b, hb⟩ : ∃ b, a.appendChild 0 (.node 1) = .ok b := ⟨_, rfl⟩
  have hb1 : TidySteps Heap.empty b := .append ta (un _ _ ta rfl (by decide)) hb
  have hbv : b = (a.appendChild 0 (.node 1)).toOption.getD Heap.empty := by rw [hb]; rfl
  have tc : ∃ c, b.removeChild 0 (.node 1) = .ok c := by rw [hbv]; exact ⟨_, rfl⟩
  obtain ⟨c, hc⟩ := tc
  have hcv : c = (b.removeChild 0 (.node 1)).toOption.getD Heap.empty := by rw [hc]; rfl
  have hc1 : TidySteps Heap.empty c := .remove hb1 hc
  have td : ∃ d, c.appendChild 2 (.node 1) = .ok d := by rw [hcv, hbv]; exact ⟨_, rfl⟩
  obtain ⟨d, hd⟩ := td
  have hdv : d = (c.appendChild 2 (.node 1)).toOption.getD Heap.empty := by rw [hd]; rfl
  refine ⟨b, c, d, .append hc1 (un _ _ hc1 ?_ ?_) hd, ?_, ?_, ?_, ?_, ?_⟩
  · rw [hcv, hbv]; rfl
  · rw [hcv, hbv]; decide
  · rw [hbv]; decide
  · rw [hcv, hbv]; decide
  · rw [hdv, hcv, hbv]; decide
  · rw [hdv, hcv, hbv]; decide
  · rw [hdv, hcv, hbv]; decide

/-! ### C111 -/

/-- What the calls of `document.appendChild` leave in a new document. -/
theorem docAppend_all (ns : List RootNode) : ns.foldl docAppend [] = ns := by
  have : ∀ ns acc, List.foldl docAppend acc ns = acc ++ ns := by
    intro ns
    induction ns with
    | nil => simp
    | cons n ns ih => intro acc; simp [List.foldl_cons, docAppend, ih]
  simpa using this ns []

/-- **C111.** Of what html5lib appends to the document, `html5.parse` returns the first element it made, whatever
comments and doctypes come before. -/
theorem C111_first_element (pre post : List RootNode) (e : Id) (hp : ∀ n ∈ pre, ∀ i, n ≠ .elem i) :
    firstElement ((pre ++ .elem e :: post).foldl docAppend []) = some (.elem e) := by
  rw [docAppend_all]
  unfold firstElement
  rw [List.find?_append]
  have : pre.find? RootNode.isElement = none := by
    rw [List.find?_eq_none]
    intro n hn
    cases n with
    | elem i => exact absurd rfl (hp _ hn i)
    | comment d => simp [RootNode.isElement]
    | doctype i => simp [RootNode.isElement]
  rw [this]; rfl

/-- It returns None exactly if there is no such element. -/
theorem C111_none (ns : List RootNode) :
    firstElement (ns.foldl docAppend []) = none ↔ ∀ n ∈ ns, ∀ i, n ≠ .elem i := by
  rw [docAppend_all]
  unfold firstElement
  rw [List.find?_eq_none]
  constructor
  · intro h n hn i hi
    rw [hi] at hn
    exact h _ hn rfl
  · intro h n hn
    cases n with
    | elem i => exact absurd rfl (h _ hn i)
    | comment d => simp [RootNode.isElement]
    | doctype i => simp [RootNode.isElement]

example : firstElement ([.comment ['x'], .doctype 3, .elem 7, .comment []].foldl docAppend []) = some (.elem 7) :=
  C111_first_element [.comment ['x'], .doctype 3] [.comment []] 7 (by simp)

end Amara
