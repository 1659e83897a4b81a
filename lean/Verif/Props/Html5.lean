/- C61, C62, C72-C75: the HTML tree adapter. -/
import Verif.Spec.Html5
import Verif.Props.Mutate
import Verif.Props.RootCache
import Verif.Props.Expat

namespace Amara

/-! ### histories keep identities in order -/

theorem bounded_alloc {h : Heap} (hb : Bounded h) (o : Obj) (ho : ∀ p, o.link = some p → p < h.next) :
    Bounded (h.alloc o) := by
  intro i x hx
  rw [Heap.alloc_obj'] at hx
  show i < h.next + 1 ∧ ∀ p, x.link = some p → p < h.next + 1
  split at hx
  · rename_i hi
    cases hx
    exact ⟨hi ▸ Nat.lt_succ_self _, fun p hp => Nat.lt_succ_of_lt (ho p hp)⟩
  · obtain ⟨h1, h2⟩ := hb i x hx
    exact ⟨Nat.lt_succ_of_lt h1, fun p hp => Nat.lt_succ_of_lt (h2 p hp)⟩

theorem bounded_set {h : Heap} (hb : Bounded h) {i : Id} {o : Obj} (hi : i < h.next)
    (ho : ∀ p, o.link = some p → p < h.next) : Bounded (h.set i o) := by
  intro j x hx
  rw [Heap.set_obj'] at hx
  split at hx
  · rename_i hj; cases hx; exact ⟨hj ▸ hi, ho⟩
  · exact hb j x hx

theorem bounded_setChildren {h : Heap} (hb : Bounded h) (e cs) : Bounded (h.setChildren e cs) := by
  unfold Heap.setChildren
  split
  · rename_i n as _ p he
    exact bounded_set hb (hb _ _ he).1 fun q hq => (hb _ _ he).2 q hq
  · exact hb

theorem bounded_insert {h h' : Heap} (hb : Bounded h) {e c i} (hok : h.xmlInsert e c i = .ok h') :
    Bounded h' := by
  obtain ⟨n, as, cs, p, d, h1, he, ha, rfl⟩ := insert_spec hok
  apply bounded_setChildren
  have hlt := (hb _ _ he).1
  have hl : ∀ q, some e = some q → q < h.next := fun q hq => by cases hq; exact hlt
  cases c with
  | str s =>
    simp only [Heap.attach, Option.some.injEq, Prod.mk.injEq] at ha
    rw [← ha.2]
    exact bounded_alloc hb _ hl
  | node k =>
    simp only [Heap.attach] at ha
    cases hd : h.obj k with
    | none => rw [hd] at ha; cases ha
    | some o =>
      rw [hd] at ha
      cases o with
      | text s q =>
        simp only [Option.some.injEq, Prod.mk.injEq] at ha
        rw [← ha.2]
        exact bounded_alloc hb _ hl
      | elem n' as' cs' q =>
        simp only [Option.some.injEq, Prod.mk.injEq] at ha
        rw [← ha.2]
        exact bounded_set hb (hb _ _ hd).1 hl

theorem bounded_before {h h' : Heap} (hb : Bounded h) {e c r} (hok : h.insertBefore e c r = .ok h') :
    Bounded h' := by
  unfold Heap.insertBefore at hok
  split at hok
  · exact bounded_insert hb hok
  · cases hok

theorem bounded_appendAll {e : Id} {cs : List HChild} : ∀ {h h' : Heap}, Bounded h → h.appendAll e cs = .ok h' →
    Bounded h' := by
  induction cs with
  | nil => intro h h' hb hok; cases hok; exact hb
  | cons c cs ih =>
    intro h h' hb hok
    simp only [Heap.appendAll] at hok
    cases hc : h.xmlAppend e c.child with
    | error x => rw [hc] at hok; cases hok
    | ok h1 => rw [hc] at hok; exact ih (bounded_insert hb hc) hok

theorem bounded_html {h : Heap} (hs : HSteps Heap.empty h) : Bounded h := by
  induction hs with
  | refl => intro i o h; cases h
  | newElement _ ih => exact bounded_alloc ih _ (by intro p hp; cases hp)
  | newText _ ih => exact bounded_alloc ih _ (by intro p hp; cases hp)
  | append _ hok ih => exact bounded_insert ih hok
  | before _ hok ih => exact bounded_before ih hok
  | @text h' h'' e s r _ hok ih =>
    cases r with
    | none => simp only [Heap.insertText] at hok; exact bounded_insert ih (c := .str s) (i := -1) hok
    | some r =>
      simp only [Heap.insertText] at hok
      split at hok
      · exact bounded_before ih hok
      · exact bounded_insert ih (c := .str s) (i := -1) hok
  | remove _ hok ih =>
    unfold Heap.removeChild at hok
    split at hok
    · cases hok; exact bounded_setChildren ih _ _
    · cases hok
  | clone _ hok ih =>
    unfold Heap.cloneNode at hok
    split at hok
    · cases hok; exact bounded_alloc ih _ (by intro p hp; cases hp)
    · cases hok
  | children _ hok ih =>
    unfold Heap.setChildNodes at hok
    split at hok
    · exact bounded_appendAll (bounded_setChildren ih _ _) hok
    · cases hok
  | release _ hr ih =>
    intro i o ho
    obtain ⟨h1, h2, _⟩ := hr
    rw [h1]
    rcases h2 i with h | h
    · exact ih i o (by rw [← h, ho])
    · rw [h] at ho; cases ho

/-! ### C61 -/

theorem insert_str_obj {h h' : Heap} {e : Id} {s : Str} {i : Int} (hb : Bounded h)
    (hok : h.xmlInsert e (.str s) i = .ok h') :
    ∃ n as cs p k, h.obj e = some (.elem n as cs p) ∧ h.obj h.next = none ∧ e ≠ h.next ∧
      ∀ j, h'.obj j = if j = e then some (.elem n as (cs.take k ++ h.next :: cs.drop k) p)
        else if j = h.next then some (.text s (some e)) else h.obj j := by
  obtain ⟨n, as, cs, p, c, h1, he, ha, rfl⟩ := insert_spec hok
  simp only [Heap.attach, Option.some.injEq, Prod.mk.injEq] at ha
  obtain ⟨rfl, rfl⟩ := ha
  have hne : e ≠ h.next := Nat.ne_of_lt (hb e _ he).1
  have hnew : h.obj h.next = none := by
    cases hx : h.obj h.next with
    | none => rfl
    | some o' => exact absurd (hb _ _ hx).1 (Nat.lt_irrefl _)
  have he1 : (h.alloc (.text s (some e))).obj e = some (.elem n as cs p) := by
    rw [Heap.alloc_obj', if_neg hne, he]
  have hce1 : (h.alloc (.text s (some e))).children e = cs := by simp [Heap.children, he1, Obj.kids]
  rw [hce1]
  refine ⟨n, as, cs, p, insertPos cs.length i, he, hnew, hne, fun j => ?_⟩
  rw [setChildren_obj he1, Heap.alloc_obj']

theorem repList_alive {h : Heap} {par : Id} : ∀ {ts : List Node} {cs : List Id}, RepList h par cs ts →
    ∀ c ∈ cs, (h.obj c).isSome := by
  intro ts
  induction ts with
  | nil => intro cs h c hc; simp only [RepList] at h; subst h; cases hc
  | cons t ts ih =>
    intro cs h c hc
    obtain ⟨d, r, rfl, h1, h2⟩ := h
    rcases List.mem_cons.1 hc with rfl | hc
    · obtain ⟨o, ho⟩ := rep_alive h1; rw [ho]; rfl
    · exact ih h2 c hc

theorem repList_insert {h : Heap} {par c : Id} (hc : Rep h (some par) c (.text [])) :
    ∀ {ts ts' : List Node} {cs : List Id} (k : Nat), RepList h par cs ts' → GainEmptyTexts ts ts' →
    ∃ ts'', RepList h par (cs.take k ++ c :: cs.drop k) ts'' ∧ GainEmptyTexts ts ts'' := by
  intro ts ts' cs k hr hg
  induction k generalizing ts ts' cs with
  | zero => exact ⟨.text [] :: ts', ⟨c, cs, by simp, hc, hr⟩, .gain hg⟩
  | succ k ih =>
    cases hg with
    | nil =>
      simp only [RepList] at hr
      subst hr
      exact ⟨[.text []], ⟨c, [], by simp, hc, by simp [RepList]⟩, .gain .nil⟩
    | keep h1 h2 =>
      obtain ⟨d, r, rfl, h3, h4⟩ := hr
      obtain ⟨ts'', h5, h6⟩ := ih h4 h2
      exact ⟨_ :: ts'', ⟨d, _, by simp; rfl, h3, by simpa using h5⟩, .keep h1 h6⟩
    | gain h2 =>
      obtain ⟨d, r, rfl, h3, h4⟩ := hr
      obtain ⟨ts'', h5, h6⟩ := ih h4 h2
      exact ⟨.text [] :: ts'', ⟨d, _, by simp; rfl, h3, by simpa using h5⟩, .gain h6⟩

/-- Inserting an empty string anywhere. -/
theorem insert_empty_rep {h h' : Heap} {e : Id} {i : Int} (hb : Bounded h)
    (hok : h.xmlInsert e (.str []) i = .ok h') :
    (∀ t p j, Rep h p j t → ∃ t', Rep h' p j t' ∧ GainsEmptyText t t') ∧
    (∀ ts par cs, RepList h par cs ts → ∃ ts', RepList h' par cs ts' ∧ GainEmptyTexts ts ts') := by
  obtain ⟨n, as, cs, p, k, he, hnew, hne, hobj⟩ := insert_str_obj hb hok
  obtain ⟨hs, hp⟩ := insert_parents hb hok
  have hpar : ∀ x, (h.obj x).isSome → h'.xmlParent x = h.xmlParent x := fun x hx =>
    hp x hx (by intro d hd; cases hd)
  have hx : Rep h' (some e) h.next (.text []) := by
    refine ⟨some e, ?_, ?_⟩
    · rw [hobj, if_neg (fun x => hne x.symm), if_pos rfl]
    · refine xmlParent_eq_some.2 ⟨.text [] (some e), ?_, rfl, ?_⟩
      · rw [hobj, if_neg (fun x => hne x.symm), if_pos rfl]
      · rw [hobj, if_pos rfl]; rfl
  apply Node.induct
  case text =>
    rintro s p j ⟨q, h1, h2⟩
    have hj1 : j ≠ e := by rintro rfl; rw [he] at h1; cases h1
    have hj2 : j ≠ h.next := by rintro rfl; rw [hnew] at h1; cases h1
    exact ⟨.text s, ⟨q, by rw [hobj, if_neg hj1, if_neg hj2, h1], by rw [hpar j (by rw [h1]; rfl), h2]⟩, .text s⟩
  case elem =>
    rintro n' as' ts ih p' j ⟨cs', q, h1, h2, h3, h4⟩
    obtain ⟨ts', h5, h6⟩ := ih _ _ h4
    have hj2 : j ≠ h.next := by rintro rfl; rw [hnew] at h1; cases h1
    have hpj := hpar j (by rw [h1]; rfl)
    by_cases hj : j = e
    · subst hj
      rw [he] at h1
      cases h1
      obtain ⟨ts'', h7, h8⟩ := repList_insert hx k h5 h6
      have hfresh : h.next ∉ cs := fun hm => by
        have := repList_alive h4 _ hm
        rw [hnew] at this; cases this
      refine ⟨.elem n as ts'', ⟨_, p, by rw [hobj, if_pos rfl], by rw [hpj, h2], ?_, h7⟩, .elem h8⟩
      have hperm := perm_insert cs k h.next
      rw [hperm.nodup_iff]
      exact List.nodup_cons.2 ⟨hfresh, h3⟩
    · exact ⟨.elem n' as' ts', ⟨cs', q, by rw [hobj, if_neg hj, if_neg hj2, h1], by rw [hpj, h2], h3, h5⟩,
        .elem h6⟩
  case nil => intro par cs h; exact ⟨[], h, .nil⟩
  case cons =>
    rintro x xs h1 h2 par cs ⟨c, r, rfl, h3, h4⟩
    obtain ⟨x', h5, h6⟩ := h1 _ _ h3
    obtain ⟨xs', h7, h8⟩ := h2 _ _ h4
    exact ⟨x' :: xs', ⟨c, r, rfl, h5, h7⟩, .keep h6 h8⟩

mutual
  theorem gains_encode {t t' : Node} (h : GainsEmptyText t t') :
      (∀ ind d, t'.encodeI ind d = t.encodeI ind d) ∧ t'.xmlValue = t.xmlValue ∧
      t'.strvalAcc.flatten = t.strvalAcc.flatten ∧ t'.isText = t.isText := by
    cases h with
    | text s => exact ⟨fun _ _ => rfl, rfl, rfl, rfl⟩
    | elem hg =>
      obtain ⟨h1, h2, h3⟩ := gain_encode hg
      exact ⟨fun ind d => by simp only [Node.encodeI, h1], h2, by simpa only [Node.strvalAcc] using h3, rfl⟩
  theorem gain_encode {ts ts' : List Node} (h : GainEmptyTexts ts ts') :
      (∀ ind d, Node.encodeChildren ind d ts' = Node.encodeChildren ind d ts) ∧
      Node.xmlValues ts' = Node.xmlValues ts ∧
      (Node.strvalAccs ts').flatten = (Node.strvalAccs ts).flatten := by
    cases h with
    | nil => exact ⟨fun _ _ => rfl, rfl, rfl⟩
    | gain hg =>
      obtain ⟨h1, h2, h3⟩ := gain_encode hg
      refine ⟨fun ind d => ?_, ?_, ?_⟩
      · rw [Node.encodeChildren, h1]; rfl
      · rw [Node.xmlValues, h2]; rfl
      · rw [Node.strvalAccs, List.flatten_cons, h3]; rfl
    | @keep t t' ts ts' ht hg =>
      obtain ⟨h1, h2, h3⟩ := gain_encode hg
      obtain ⟨h4, h5, h6, h7⟩ := gains_encode ht
      refine ⟨fun ind d => ?_, ?_, ?_⟩
      · cases ht with
        | text s => simp only [Node.encodeChildren, h1]
        | elem _ => simp only [Node.encodeChildren, h1, h4]
      · rw [Node.xmlValues, Node.xmlValues, h2, h5]
      · cases ht with
        | text s => simp only [Node.strvalAccs, List.flatten_cons, h3]
        | elem _ => simp only [Node.strvalAccs, List.flatten_append, h3, h6]
end

/-- **C61.** Whenever the adapter puts a comment into a tree - appending it or before any reference,
whatever its data - every tree in memory stays a tree with the same `xml_encode` (with any
indentation), the same `xml_value` and the same `strval`. -/
theorem C61_comments_are_not_text {h h' : Heap} (hs : HSteps Heap.empty h) {e : Id} {data : Str}
    (hc : PutsComment h e data h') {p : Option Id} {i : Id} {t : Node} (hr : Rep h p i t) :
    ∃ t', Rep h' p i t' ∧ (∀ ind d, t'.encodeI ind d = t.encodeI ind d) ∧ t'.xmlValue = t.xmlValue ∧
      t'.strval = t.strval := by
  have key : ∃ k, h.xmlInsert e (.str []) k = .ok h' := by
    cases hc with
    | append h1 => exact ⟨_, h1⟩
    | before ref h1 =>
      unfold Heap.insertBefore at h1
      split at h1
      · exact ⟨_, h1⟩
      · cases h1
  obtain ⟨k, hk⟩ := key
  obtain ⟨t', h1, h2⟩ := (insert_empty_rep (bounded_html hs) hk).1 t p i hr
  obtain ⟨h3, h4, h5, h6⟩ := gains_encode h2
  refine ⟨t', h1, h3, h4, ?_⟩
  cases h2 with
  | text s => rfl
  | elem _ => exact h5

/-- `<p>x</p>` in memory. -/
def exPara : Heap := ((Heap.empty.newElement ['p'] []).2.appendChild 0 (.str ['x'])).toOption.getD Heap.empty

theorem exPara_made : HSteps Heap.empty exPara :=
  .append (e := 0) (c := .str ['x']) (.newElement (n := ['p']) (as := []) .refl) rfl

/-- A comment goes in before the text of `<p>x</p>`, and the tree gains a child. -/
example : ∃ h', PutsComment exPara 0 ['!'] h' ∧ Rep exPara none 0 (.elem ['p'] [] [.text ['x']]) ∧
    h'.children 0 = [2, 1] := by
  refine ⟨_, .before (.node 1) rfl, ?_, by decide⟩
  exact ⟨[1], none, rfl, rfl, by decide, 1, [], rfl, ⟨some 0, rfl, rfl⟩, rfl⟩

/-! ### C62 -/

/-- Two text nodes with the same characters. -/
def SameText (h : Heap) (c d : Id) : Prop := ∃ s p q, h.obj c = some (.text s p) ∧ h.obj d = some (.text s q)

theorem refEq_node {h : Heap} {c d : Id} : h.refEq (.node d) c = true ↔ c = d ∨ SameText h c d := by
  unfold Heap.refEq Heap.pyEq SameText
  rw [Bool.or_eq_true, beq_iff_eq]
  apply or_congr_right
  constructor
  · intro h1
    split at h1
    · rename_i s p s' q e1 e2
      exact ⟨s, p, q, e1, by rw [e2, beq_iff_eq.1 h1]⟩
    · cases h1
  · rintro ⟨s, p, q, e1, e2⟩
    rw [e1, e2]; simp

theorem findIdx?_first {α} {f : α → Bool} {pre post : List α} {d : α} (hd : f d = true)
    (hp : ∀ x ∈ pre, f x = false) : (pre ++ d :: post).findIdx? f = some pre.length := by
  induction pre with
  | nil => simp [List.findIdx?_cons, hd]
  | cons x pre ih =>
    rw [List.cons_append, List.findIdx?_cons, hp x (List.mem_cons_self ..)]
    simp [ih fun y hy => hp y (List.mem_cons_of_mem _ hy)]

theorem insert_total {h : Heap} {e : Id} (he : h.isElem e) {c : Child}
    (hc : ∀ k, c = .node k → (h.obj k).isSome) (i : Int) : ∃ h', h.xmlInsert e c i = .ok h' := by
  obtain ⟨n, as, cs, p, he⟩ := he
  unfold Heap.xmlInsert
  rw [he]
  simp only
  have : ∃ x, h.attach e c = some x := by
    cases c with
    | str s => exact ⟨_, rfl⟩
    | node k =>
      obtain ⟨o, ho⟩ := Option.isSome_iff_exists.1 (hc k rfl)
      simp only [Heap.attach]
      rw [ho]
      cases o <;> exact ⟨_, rfl⟩
  obtain ⟨⟨c, h1⟩, hx⟩ := this
  rw [hx]
  exact ⟨_, rfl⟩

/-- **C62** for a reference that no earlier child equals: `e.insertBefore(c, d)` puts one node immediately
before `d` and leaves the rest in order; the node is `c` itself if it is an element, and otherwise a new
text with the characters of `c` (none for a comment). Missing: a reference text with an equal text before
it. -/
theorem C62_insert_before_partial {h : Heap} (hs : HSteps Heap.empty h) {e d : Id} {pre post : List Id}
    (he : h.isElem e) (hch : h.children e = pre ++ d :: post)
    (hpre : ∀ x ∈ pre, x ≠ d ∧ ¬ SameText h x d) {c : HChild}
    (hc : ∀ k, c = .node k → (h.obj k).isSome) :
    ∃ h' x, h.insertBefore e c (.node d) = .ok h' ∧ h'.children e = pre ++ x :: d :: post ∧
      h'.xmlParent x = some e ∧ (∀ k, c = .node k → h.isElem k → x = k) ∧
      (∀ s, c = .str s → h'.obj x = some (.text s (some e))) ∧
      (∀ s, c = .comment s → h'.obj x = some (.text [] (some e))) := by
  have hf : (h.children e).findIdx? (h.refEq (.node d)) = some pre.length := by
    rw [hch]
    apply findIdx?_first
    · exact refEq_node.2 (Or.inl rfl)
    · intro x hx
      obtain ⟨h1, h2⟩ := hpre x hx
      cases hq : h.refEq (.node d) x with
      | false => rfl
      | true => exact absurd (refEq_node.1 hq) (by rintro (h3 | h3); exact h1 h3; exact h2 h3)
  have hcc : ∀ k, c.child = .node k → (h.obj k).isSome := by
    intro k hk
    cases c with
    | node j => cases hk; exact hc _ rfl
    | str s => cases hk
    | comment s => cases hk
  obtain ⟨h', hok⟩ := insert_total he hcc (pre.length : Int)
  obtain ⟨x, h1, h2, h3, h4, _, _⟩ := C25_insert_position hok (bounded_html hs)
  have hpos : insertPos (h.children e).length (pre.length : Int) = pre.length := by
    rw [hch]
    simp [insertPos]
  refine ⟨h', x, by unfold Heap.insertBefore; rw [hf]; exact hok, ?_, h2, ?_, ?_, ?_⟩
  · rw [h1, hpos, hch]; simp
  · intro k hk hek; exact h3 k (by rw [hk]; rfl) hek
  · intro s hk; exact (h4 s (Or.inl (by rw [hk]; rfl))).2
  · intro s hk; exact (h4 [] (Or.inl (by rw [hk]; rfl))).2

/-- For an element as reference nothing is missing: it goes by identity. -/
theorem C62_before_an_element {h : Heap} (hs : HSteps Heap.empty h) {e d : Id} {pre post : List Id}
    (he : h.isElem e) (hd : h.isElem d) (hch : h.children e = pre ++ d :: post) (hp : d ∉ pre) {c : HChild}
    (hc : ∀ k, c = .node k → (h.obj k).isSome) :
    ∃ h' x, h.insertBefore e c (.node d) = .ok h' ∧ h'.children e = pre ++ x :: d :: post ∧
      h'.xmlParent x = some e ∧ (∀ k, c = .node k → h.isElem k → x = k) ∧
      (∀ s, c = .str s → h'.obj x = some (.text s (some e))) ∧
      (∀ s, c = .comment s → h'.obj x = some (.text [] (some e))) := by
  refine C62_insert_before_partial hs he hch ?_ hc
  intro x hx
  refine ⟨fun h => hp (h ▸ hx), ?_⟩
  rintro ⟨s, p, q, h1, h2⟩
  obtain ⟨_, _, _, _, h3⟩ := hd
  rw [h2] at h3; cases h3

/-- **C62**, errors: `ValueError` exactly when neither the reference nor a text equal to it is a child. -/
theorem C62_value_error {h : Heap} {e d : Id} (he : h.isElem e) {c : HChild}
    (hc : ∀ k, c = .node k → (h.obj k).isSome) :
    h.insertBefore e c (.node d) = .error .valueError ↔
      ∀ x ∈ h.children e, x ≠ d ∧ ¬ SameText h x d := by
  have hcc : ∀ k, c.child = .node k → (h.obj k).isSome := by
    intro k hk
    cases c with
    | node j => cases hk; exact hc _ rfl
    | str s => cases hk
    | comment s => cases hk
  unfold Heap.insertBefore
  cases hf : (h.children e).findIdx? (h.refEq (.node d)) with
  | none =>
    simp only [true_iff]
    intro x hx
    have := List.findIdx?_eq_none_iff.1 hf x hx
    refine ⟨fun h1 => ?_, fun h1 => ?_⟩
    · rw [refEq_node.2 (Or.inl h1)] at this; cases this
    · rw [refEq_node.2 (Or.inr h1)] at this; cases this
  | some k =>
    obtain ⟨h', hok⟩ := insert_total he hcc (k : Int)
    simp only [hok]
    constructor
    · intro hx; cases hx
    · intro hall
      exfalso
      have : (h.children e).findIdx? (h.refEq (.node d)) = none := by
        rw [List.findIdx?_eq_none_iff]
        intro x hx
        obtain ⟨h1, h2⟩ := hall x hx
        cases hq : h.refEq (.node d) x with
        | false => rfl
        | true => exact absurd (refEq_node.1 hq) (by rintro (h3 | h3); exact h1 h3; exact h2 h3)
      rw [hf] at this; cases this

theorem refEq_str {h : Heap} {c : Id} {s : Str} {ref : HChild} (hr : ref = .str s ∨ ref = .comment s) :
    h.refEq ref c = true ↔ ∃ p, h.obj c = some (.text s p) := by
  have : h.refEq ref c = match h.obj c with | some (.text s' _) => s' == s | _ => false := by
    rcases hr with rfl | rfl <;> rfl
  rw [this]
  cases h.obj c with
  | none => simp
  | some o => cases o <;> simp

/-- **C62**, errors, for a plain string or a comment as reference: `ValueError` exactly when no child is a text node
with its characters. -/
theorem C62_value_error_string {h : Heap} {e : Id} (he : h.isElem e) {c : HChild}
    (hc : ∀ k, c = .node k → (h.obj k).isSome) {s : Str} {ref : HChild} (hr : ref = .str s ∨ ref = .comment s) :
    h.insertBefore e c ref = .error .valueError ↔ ∀ x ∈ h.children e, ∀ p, h.obj x ≠ some (.text s p) := by
  have hcc : ∀ k, c.child = .node k → (h.obj k).isSome := by
    intro k hk
    cases c with
    | node j => cases hk; exact hc _ rfl
    | str s => cases hk
    | comment s => cases hk
  unfold Heap.insertBefore
  cases hf : (h.children e).findIdx? (h.refEq ref) with
  | none =>
    simp only [true_iff]
    intro x hx p hp
    have := List.findIdx?_eq_none_iff.1 hf x hx
    rw [(refEq_str hr).2 ⟨p, hp⟩] at this
    cases this
  | some k =>
    obtain ⟨h', hok⟩ := insert_total he hcc (k : Int)
    simp only [hok]
    constructor
    · intro hx; cases hx
    · intro hall
      exfalso
      have : (h.children e).findIdx? (h.refEq ref) = none := by
        rw [List.findIdx?_eq_none_iff]
        intro x hx
        cases hq : h.refEq ref x with
        | false => rfl
        | true =>
          obtain ⟨p, hp⟩ := (refEq_str hr).1 hq
          exact (hall x hx p hp).elim
      rw [hf] at this; cases this

/-- C62 in full is false: before the second of two equal texts, the node goes before the first. -/
theorem C62_full_statement_is_false : ∃ h', exTwins.insertBefore 0 (.str ['y']) (.node 2) = .ok h' ∧
    exTwins.children 0 = [1, 2] ∧ h'.children 0 = [3, 1, 2] :=
  ⟨_, rfl, by decide, by decide⟩

/-- `insertText` without a reference adds the text last. -/
theorem C62_insert_text_last {h h' : Heap} (hs : HSteps Heap.empty h) {e : Id} {s : Str}
    (hok : h.insertText e s none = .ok h') :
    ∃ x, h'.children e = h.children e ++ [x] ∧ h'.obj x = some (.text s (some e)) := by
  obtain ⟨x, h1, -, -, h4⟩ := C25_append_is_last (child := .str s) hok (bounded_html hs)
  exact ⟨x, h1, (h4 s (Or.inl rfl)).2⟩

/-- `insertText` before an element puts the text immediately before it. -/
theorem C62_insert_text_before_element {h : Heap} (hs : HSteps Heap.empty h) {e d : Id}
    {pre post : List Id} (he : h.isElem e) (hd : h.isElem d) (hch : h.children e = pre ++ d :: post)
    (hp : d ∉ pre) (s : Str) :
    ∃ h' x, h.insertText e s (some (.node d)) = .ok h' ∧ h'.children e = pre ++ x :: d :: post ∧
      h'.obj x = some (.text s (some e)) := by
  obtain ⟨h', x, h1, h2, -, -, h5, -⟩ := C62_before_an_element hs he hd hch hp (c := .str s)
    (by intro k hk; cases hk)
  refine ⟨h', x, ?_, h2, h5 s rfl⟩
  have ht : h.truthy (.node d) = true := by
    obtain ⟨_, _, _, _, h3⟩ := hd
    simp only [Heap.truthy, h3]
  simp only [Heap.insertText, ht, if_true, h1]

/-- `insertText` before a string, or a comment, that is not empty: the text goes before the first child with the same characters; an
empty string counts as no reference, and the text goes last. -/
theorem C62_insert_text_before_string {h : Heap} (hs : HSteps Heap.empty h) {e : Id} (he : h.isElem e) (s : Str) {u : Str} {ref : HChild}
    (hr : ref = .str u ∨ ref = .comment u) :
    (u ≠ [] → ∀ pre d post p, h.children e = pre ++ d :: post → h.obj d = some (.text u p) →
      (∀ x ∈ pre, ∀ q, h.obj x ≠ some (.text u q)) →
      ∃ h' x, h.insertText e s (some ref) = .ok h' ∧ h'.children e = pre ++ x :: d :: post ∧ h'.obj x = some (.text s (some e))) ∧
    (u ≠ [] → (h.insertText e s (some ref) = .error .valueError ↔ ∀ x ∈ h.children e, ∀ p, h.obj x ≠ some (.text u p))) ∧
    (u = [] → h.insertText e s (some ref) = h.insertText e s none) := by
  have ht : h.truthy ref = (u != []) := by rcases hr with rfl | rfl <;> rfl
  have hb : u ≠ [] → h.insertText e s (some ref) = h.insertBefore e (.str s) ref := by
    intro hu
    simp only [Heap.insertText, ht]
    rw [if_pos (by simpa using hu)]
  refine ⟨fun hu pre d post p hch hd hpre => ?_, fun hu => ?_, ?_⟩
  · have hf : (h.children e).findIdx? (h.refEq ref) = some pre.length := by
      rw [hch]
      apply findIdx?_first
      · exact (refEq_str hr).2 ⟨p, hd⟩
      · intro x hx
        cases hq : h.refEq ref x with
        | false => rfl
        | true =>
          obtain ⟨q, hq⟩ := (refEq_str hr).1 hq
          exact (hpre x hx q hq).elim
    obtain ⟨h', hok⟩ := insert_total (c := .str s) he (fun k hk => by cases hk) (pre.length : Int)
    obtain ⟨x, h1, h2, h3, h4, _, _⟩ := C25_insert_position hok (bounded_html hs)
    have hpos : insertPos (h.children e).length (pre.length : Int) = pre.length := by
      rw [hch]
      simp [insertPos]
    refine ⟨h', x, ?_, ?_, (h4 s (Or.inl rfl)).2⟩
    · rw [hb hu]
      unfold Heap.insertBefore
      rw [hf]
      exact hok
    · rw [h1, hpos, hch]; simp
  · rw [hb hu]
    exact C62_value_error_string he (fun k hk => by cases hk) hr
  · rintro rfl
    simp only [Heap.insertText, ht]
    rfl

/-- Before the empty text that a comment leaves behind, `insertText` adds the text last instead. -/
theorem C62_text_before_comment_goes_last : ∃ h h', PutsComment exPara 0 ['!'] h ∧ h.children 0 = [2, 1] ∧
    h.insertText 0 ['y'] (some (.node 2)) = .ok h' ∧ h'.children 0 = [2, 1, 3] := by
  exact ⟨_, _, .before (.node 1) rfl, by decide, rfl, by decide⟩

/-! ### C72 -/

theorem refEq_elem {h : Heap} {c d : Id} (hd : h.isElem d) : h.refEq (.node d) c = true ↔ c = d := by
  rw [refEq_node]
  refine ⟨fun h1 => h1.elim id ?_, Or.inl⟩
  rintro ⟨s, p, q, h1, h2⟩
  obtain ⟨_, _, _, _, h3⟩ := hd
  rw [h2] at h3; cases h3

theorem eraseP_eq_erase {xs : List Id} {f : Id → Bool} {d : Id} (hf : ∀ c, f c = true ↔ c = d) :
    xs.eraseP f = xs.erase d := by
  induction xs with
  | nil => rfl
  | cons x xs ih =>
    rw [List.eraseP_cons, List.erase_cons, ih]
    by_cases h : x = d
    · rw [(hf x).2 h, h]; simp
    · have : f x = false := by
        cases hx : f x with
        | false => rfl
        | true => exact absurd ((hf x).1 hx) h
      simp [this, h]

/-- **C72** for elements: `e.removeChild(d)` takes exactly `d` out of the children of `e` and changes nothing
else in memory. Missing: the `xml_parent` of `d` should become None; it does not change. -/
theorem C72_remove_child_partial {h h' : Heap} {e d : Id} (he : h.isElem e) (hd : h.isElem d)
    (hok : h.removeChild e (.node d) = .ok h') :
    d ∈ h.children e ∧ h'.children e = (h.children e).erase d ∧ (∀ k, k ≠ e → h'.obj k = h.obj k) ∧
    (∀ k, h'.xmlParent k = h.xmlParent k) := by
  obtain ⟨n, as, cs, p, he⟩ := he
  unfold Heap.removeChild at hok
  split at hok
  · rename_i hany
    cases hok
    have hce : h.children e = cs := by simp [Heap.children, he, Obj.kids]
    rw [List.any_eq_true] at hany
    obtain ⟨x, hx, hxe⟩ := hany
    rw [refEq_elem hd] at hxe
    subst hxe
    rw [eraseP_eq_erase (fun c => refEq_elem hd)]
    have hobj := fun k => setChildren_obj he ((h.children e).erase x) k
    have hsome : ∀ k, ((h.setChildren e ((h.children e).erase x)).obj k).isSome = (h.obj k).isSome := by
      intro k; rw [hobj]; split
      · rename_i hk; rw [hk, he]; rfl
      · rfl
    refine ⟨hx, ?_, fun k hk => by rw [hobj, if_neg hk], fun k => ?_⟩
    · show (((h.setChildren e ((h.children e).erase x)).obj e).map Obj.kids).getD [] = _
      rw [hobj, if_pos rfl]; rfl
    · unfold Heap.xmlParent
      have hl : ((h.setChildren e ((h.children e).erase x)).obj k).bind Obj.link = (h.obj k).bind Obj.link := by
        rw [hobj]; split
        · rename_i hk; rw [hk, he]; rfl
        · rfl
      rw [hl]
      cases (h.obj k).bind Obj.link with
      | none => rfl
      | some j => simp only [Heap.deref, hsome]
  · cases hok

/-- `removeChild` raises ValueError exactly when the element is not a child. -/
theorem C72_value_error {h : Heap} {e d : Id} (hd : h.isElem d) :
    h.removeChild e (.node d) = .error .valueError ↔ d ∉ h.children e := by
  unfold Heap.removeChild
  split
  · rename_i hany
    rw [List.any_eq_true] at hany
    obtain ⟨x, hx, hxe⟩ := hany
    rw [refEq_elem hd] at hxe
    subst hxe
    exact ⟨fun h => (by cases h), fun h => absurd hx h⟩
  · rename_i hany
    refine ⟨fun _ hm => hany ?_, fun _ => rfl⟩
    rw [List.any_eq_true]
    exact ⟨d, hm, (refEq_elem hd).2 rfl⟩

/-- C72 in full is false: after `removeChild` the element still has its former parent as `xml_parent`. -/
theorem C72_full_statement_is_false : ∃ h h', HSteps Heap.empty h ∧ h.isElem 0 ∧ h.isElem 1 ∧
    h.removeChild 0 (.node 1) = .ok h' ∧ h'.children 0 = [] ∧ h'.xmlParent 1 = some 0 := by
  refine ⟨_, _, .append (e := 0) (c := .node 1) (h'' := _)
    (.newElement (n := ['b']) (as := []) (.newElement (n := ['a']) (as := []) .refl)) rfl,
    ⟨_, _, _, _, rfl⟩, ⟨_, _, _, _, rfl⟩, rfl, by decide, by decide⟩

/-! ### C73 -/

theorem takeWhile_rev {q : Str} : ∀ {r : Str}, q.reverse = r → LocalPart q (r.takeWhile (· ≠ ':')).reverse := by
  intro r hr
  have h0 : r = r.takeWhile (· ≠ ':') ++ r.dropWhile (· ≠ ':') := (List.takeWhile_append_dropWhile ..).symm
  refine ⟨?_, ?_⟩
  · intro hm
    rw [List.mem_reverse] at hm
    have := List.all_takeWhile (p := fun c : Char => decide (c ≠ ':')) (l := r)
    rw [List.all_eq_true] at this
    simpa using this _ hm
  · cases hd : r.dropWhile (· ≠ ':') with
    | nil =>
      left
      rw [hd, List.append_nil] at h0
      rw [← h0, ← hr, List.reverse_reverse]
    | cons c t =>
      right
      have hc : c = ':' := by
        have := List.head?_dropWhile_not (p := fun c : Char => decide (c ≠ ':')) (l := r)
        rw [hd] at this
        simpa using this
      subst hc
      refine ⟨t.reverse, ?_⟩
      have : q = r.reverse := by rw [← hr, List.reverse_reverse]
      rw [this]
      conv => lhs; rw [h0, hd]
      simp

theorem qnameToLocal_local (q : Str) : LocalPart q (qnameToLocal q) := takeWhile_rev rfl

theorem localPart_unique {q l l' : Str} (h : LocalPart q l) (h' : LocalPart q l') : l = l' := by
  have aux : ∀ {a b : Str} {p : Str}, ':' ∉ a → a = p ++ ':' :: b → False := by
    intro a b p ha he; apply ha; rw [he]; simp
  have two : ∀ {p p' : Str}, p ++ ':' :: l = p' ++ ':' :: l' → ':' ∉ l → ':' ∉ l' → l = l' := by
    intro p
    induction p with
    | nil =>
      intro p' he hl hl'
      cases p' with
      | nil => simpa using he
      | cons c p' =>
        rw [List.nil_append, List.cons_append] at he
        exact absurd (List.cons.inj he).2 fun h => aux hl h
    | cons c p ih =>
      intro p' he hl hl'
      cases p' with
      | nil =>
        rw [List.nil_append, List.cons_append] at he
        exact absurd (List.cons.inj he).2.symm fun h => aux hl' h
      | cons c' p' =>
        rw [List.cons_append, List.cons_append] at he
        exact ih (List.cons.inj he).2 hl hl'
  obtain ⟨h1, h2⟩ := h
  obtain ⟨h3, h4⟩ := h'
  rcases h2 with h2 | ⟨p, h2⟩ <;> rcases h4 with h4 | ⟨p', h4⟩
  · rw [← h2, h4]
  · exact (aux h1 (h2 ▸ h4)).elim
  · exact (aux h3 (h4 ▸ h2)).elim
  · exact two (h2 ▸ h4) h1 h3

theorem get_set (as : Attrs) (k v k' : Str) : (as.set k v).get k' = if k' = k then some v else as.get k' := by
  induction as with
  | nil =>
    simp only [Attrs.set, Attrs.get]
    by_cases h : k' = k
    · simp [h]
    · rw [if_neg h, if_neg (fun e => h e.symm)]
  | cons x as ih =>
    obtain ⟨a, b⟩ := x
    simp only [Attrs.set]
    by_cases h : a = k
    · rw [if_pos h]
      simp only [Attrs.get]
      by_cases h' : k' = k
      · rw [if_pos (h.trans h'.symm), if_pos h']
      · rw [if_neg h', if_neg (fun e => h' (e.symm.trans h)), if_neg (fun e => h' (e.symm.trans h))]
    · rw [if_neg h]
      simp only [Attrs.get, ih]
      by_cases h' : a = k'
      · rw [if_pos h', if_pos h', if_neg (fun e => h (h'.trans e))]
      · rw [if_neg h', if_neg h']

/-- One assignment of `setAttributes`. -/
theorem setAttributes_cons (old : Attrs) (key : AttrKey) (v : Str) (r : List (AttrKey × Str)) :
    (∃ l, StandsFor key l ∧ setAttributes old ((key, v) :: r) = setAttributes (old.set l v) r) ∨
    ((∀ l, ¬ StandsFor key l) ∧ setAttributes old ((key, v) :: r) = setAttributes old r) := by
  cases key with
  | tuple s => exact Or.inl ⟨_, .tuple (qnameToLocal_local s), rfl⟩
  | name s =>
    simp only [setAttributes]
    by_cases hp : "xmlns".toList.isPrefixOf s = true
    · rw [if_pos hp]
      refine Or.inr ⟨?_, rfl⟩
      rintro l h
      cases h with
      | name hn => exact hn ((List.isPrefixOf_iff_prefix.1 hp).imp fun _ h => h.symm)
    · rw [if_neg hp]
      refine Or.inl ⟨s, .name ?_, rfl⟩
      rintro ⟨r, hr⟩
      exact hp (List.isPrefixOf_iff_prefix.2 ⟨r, hr.symm⟩)

theorem standsFor_unique {key : AttrKey} {l l' : Str} (h : StandsFor key l) (h' : StandsFor key l') : l = l' := by
  cases h with
  | tuple h1 => cases h' with | tuple h2 => exact localPart_unique h1 h2
  | name _ => cases h' with | name _ => rfl

/-- **C73.** Assigning html5lib's attributes: a name that no key stands for keeps its value (or stays
absent). -/
theorem C73_other_attributes_stay (old : Attrs) (k : Str) (as : List (AttrKey × Str))
    (h : ∀ key v, (key, v) ∈ as → ¬ StandsFor key k) : (setAttributes old as).get k = old.get k := by
  induction as generalizing old with
  | nil => rfl
  | cons x r ih =>
    obtain ⟨key, v⟩ := x
    have hr := fun o => ih o fun key' v' hm => h key' v' (List.mem_cons_of_mem _ hm)
    rcases setAttributes_cons old key v r with ⟨l, hl, he⟩ | ⟨-, he⟩
    · rw [he, hr, get_set, if_neg]
      rintro rfl
      exact h key v (List.mem_cons_self ..) hl
    · rw [he, hr]

/-- **C73.** A name that some key stands for gets the value of the last such key; a namespace declaration
stands for no name. -/
theorem C73_attributes_are_set (old : Attrs) (k v : Str) (key : AttrKey) (pre post : List (AttrKey × Str))
    (hk : StandsFor key k) (h : ∀ key' v', (key', v') ∈ post → ¬ StandsFor key' k) :
    (setAttributes old (pre ++ (key, v) :: post)).get k = some v := by
  induction pre generalizing old with
  | nil =>
    rcases setAttributes_cons old key v post with ⟨l, hl, he⟩ | ⟨hn, -⟩
    · rw [List.nil_append, he, C73_other_attributes_stay _ _ _ h, get_set, if_pos (standsFor_unique hk hl)]
    · exact absurd hk (hn k)
  | cons x pre ih =>
    obtain ⟨key', v'⟩ := x
    rcases setAttributes_cons old key' v' (pre ++ (key, v) :: post) with ⟨l, _, he⟩ | ⟨-, he⟩
    · rw [List.cons_append, he]; exact ih _
    · rw [List.cons_append, he]; exact ih _

/-- The names after `d[k] = v`. -/
theorem set_names (as : Attrs) (k v : Str) :
    (as.set k v).map (·.1) = if k ∈ as.map (·.1) then as.map (·.1) else as.map (·.1) ++ [k] := by
  induction as with
  | nil => rfl
  | cons a r ih =>
    obtain ⟨a, b⟩ := a
    simp only [Attrs.set]
    by_cases h : a = k
    · subst h; simp
    · rw [if_neg h, List.map_cons, ih]
      have : (k = a) = False := by simp [Ne.symm h]
      by_cases hk : k ∈ r.map (·.1)
      · rw [if_pos hk, if_pos (by simp only [List.map_cons, List.mem_cons]; exact Or.inr hk), List.map_cons]
      · rw [if_neg hk, if_neg (by simp only [List.map_cons, List.mem_cons, this, false_or]; exact hk)]; rfl

theorem setAttributes_append (old : Attrs) (pre post : List (AttrKey × Str)) :
    setAttributes old (pre ++ post) = setAttributes (setAttributes old pre) post := by
  induction pre generalizing old with
  | nil => rfl
  | cons x r ih =>
    obtain ⟨key, v⟩ := x
    cases key with
    | tuple s => exact ih _
    | name s => simp only [List.cons_append, setAttributes]; split <;> exact ih _

theorem setAttributes_names (old : Attrs) (as : List (AttrKey × Str)) :
    ∃ new, (setAttributes old as).map (·.1) = old.map (·.1) ++ new ∧ (∀ k ∈ new, ∃ key v, (key, v) ∈ as ∧ StandsFor key k) ∧
      new.Nodup ∧ ∀ k ∈ new, k ∉ old.map (·.1) := by
  induction as generalizing old with
  | nil => exact ⟨[], by simp [setAttributes]⟩
  | cons x r ih =>
    obtain ⟨key, v⟩ := x
    rcases setAttributes_cons old key v r with ⟨l, hl, he⟩ | ⟨-, he⟩
    · obtain ⟨new, h1, h2, h3, h4⟩ := ih (old.set l v)
      rw [set_names] at h1 h4
      rw [he]
      by_cases hm : l ∈ old.map (·.1)
      · rw [if_pos hm] at h1 h4
        exact ⟨new, h1, fun k hk => let ⟨key', v', hk', hs⟩ := h2 k hk; ⟨key', v', List.mem_cons_of_mem _ hk', hs⟩, h3, h4⟩
      · rw [if_neg hm] at h1 h4
        refine ⟨l :: new, by rw [h1, List.append_assoc]; rfl, ?_, ?_, ?_⟩
        · intro k hk
          rcases List.mem_cons.1 hk with rfl | hk
          · exact ⟨key, v, List.mem_cons_self .., hl⟩
          · obtain ⟨key', v', hk', hs⟩ := h2 k hk
            exact ⟨key', v', List.mem_cons_of_mem _ hk', hs⟩
        · exact List.nodup_cons.2 ⟨fun h => h4 l h (by simp), h3⟩
        · intro k hk
          rcases List.mem_cons.1 hk with rfl | hk
          · exact hm
          · exact fun h => h4 k hk (List.mem_append_left _ h)
    · obtain ⟨new, h1, h2, h3, h4⟩ := ih old
      rw [he]
      exact ⟨new, h1, fun k hk => let ⟨key', v', hk', hs⟩ := h2 k hk; ⟨key', v', List.mem_cons_of_mem _ hk', hs⟩, h3, h4⟩

/-- **C73**, the order: the attributes there were stay in their places, and a name that is new goes to the end when the
first key that stands for it is reached.  No name is there twice, and nothing but these names is added. -/
theorem C73_in_order (old : Attrs) (pre post : List (AttrKey × Str)) :
    (∃ new, (setAttributes old pre).map (·.1) = old.map (·.1) ++ new ∧ new.Nodup ∧
      (∀ k, k ∈ new ↔ (∃ key v, (key, v) ∈ pre ∧ StandsFor key k) ∧ k ∉ old.map (·.1))) ∧
    (∀ key v k, StandsFor key k → (∀ key' v', (key', v') ∈ pre → ¬ StandsFor key' k) → k ∉ old.map (·.1) →
      ∃ rest, (setAttributes old (pre ++ (key, v) :: post)).map (·.1) = (setAttributes old pre).map (·.1) ++ k :: rest) := by
  have hmem : ∀ (old : Attrs) (pre : List (AttrKey × Str)) key v k, (key, v) ∈ pre → StandsFor key k →
      k ∈ (setAttributes old pre).map (·.1) := by
    intro old pre key v k hm hk
    obtain ⟨p, q, rfl⟩ := List.append_of_mem hm
    rw [setAttributes_append]
    rcases setAttributes_cons (setAttributes old p) key v q with ⟨l, hl, he⟩ | ⟨hn, -⟩
    · rw [he]
      obtain ⟨new, h1, -⟩ := setAttributes_names ((setAttributes old p).set l v) q
      rw [h1, set_names, standsFor_unique hk hl]
      apply List.mem_append_left
      split
      · assumption
      · simp
    · exact absurd hk (hn k)
  constructor
  · obtain ⟨new, h1, h2, h3, h4⟩ := setAttributes_names old pre
    refine ⟨new, h1, h3, fun k => ⟨fun hk => ⟨h2 k hk, h4 k hk⟩, ?_⟩⟩
    rintro ⟨⟨key, v, hm, hk⟩, ho⟩
    have := hmem old pre key v k hm hk
    rw [h1] at this
    exact (List.mem_append.1 this).resolve_left ho
  · intro key v k hk hpre ho
    have hno : k ∉ (setAttributes old pre).map (·.1) := by
      obtain ⟨new, h1, h2, -, -⟩ := setAttributes_names old pre
      rw [h1]
      intro hm
      rcases List.mem_append.1 hm with hm | hm
      · exact ho hm
      · obtain ⟨key', v', hm', hs⟩ := h2 k hm
        exact hpre key' v' hm' hs
    rw [setAttributes_append]
    rcases setAttributes_cons (setAttributes old pre) key v post with ⟨l, hl, he⟩ | ⟨hn, -⟩
    · rw [he]
      obtain ⟨new, h1, -⟩ := setAttributes_names ((setAttributes old pre).set l v) post
      rw [h1, set_names, ← standsFor_unique hk hl, if_neg hno, List.append_assoc]
      exact ⟨new, rfl⟩
    · exact absurd hk (hn k)

/-- C73, what it means for a name with a colon that html5lib gives without namespace, as it does for `xml:lang` in HTML:
the attribute has the colon in its name, so the element is written as a text that the parser refuses. -/
theorem C73_colons_stay (p l v : Str) (hp : p ≠ []) (hx : ¬ ∃ r, p ++ ':' :: l = "xmlns".toList ++ r) :
    setAttributes [] [(.name (p ++ ':' :: l), v)] = [(p ++ ':' :: l, v)] ∧ ¬ IsName (p ++ ':' :: l) ∧
    ∃ b, setAttributes [] [(.name "xml:lang".toList, "en".toList)] = b ∧
      (send newParser (Node.elem ['a'] b []).encode true).2.1 = .raised .runtime := by
  refine ⟨?_, ?_, _, rfl, by decide +kernel⟩
  · simp only [setAttributes]
    rw [if_neg]
    · rfl
    · intro h
      exact hx ((List.isPrefixOf_iff_prefix.1 h).imp fun _ h => h.symm)
  · cases p with
    | nil => exact absurd rfl hp
    | cons c p =>
      rintro ⟨d, r, he, -, h⟩
      cases he
      have := h ':' (by simp)
      revert this
      decide +kernel

example : ¬ ∃ r, "xml".toList ++ ':' :: "lang".toList = "xmlns".toList ++ r := by
  rintro ⟨r, h⟩; simp at h

/-- Two names in the order of their first keys; the second key for `b` only changes its value. -/
example : setAttributes [] [(.name ['b'], ['1']), (.tuple "x:a".toList, ['2']), (.name "xmlns:b".toList, []), (.tuple "y:b".toList, ['3'])] =
    [(['b'], ['3']), (['a'], ['2'])] := by decide

example : StandsFor (.tuple "xlink:href".toList) "href".toList :=
  .tuple ⟨by decide, Or.inr ⟨"xlink".toList, by decide⟩⟩
example : ∀ l, ¬ StandsFor (.name "xmlns:svg".toList) l := by
  rintro l h
  cases h with
  | name h => exact h ⟨":svg".toList, by decide⟩

/-! ### C74 -/

/-- **C74.** The name of an element made by the adapter is the local part of the name html5lib gives, and
the placeholder if it gives none; it never contains a colon. -/
theorem C74_element_names (name : Option Str) :
    (∀ n, name = some n → n ≠ [] → LocalPart n (eclassName name)) ∧
    (name = none ∨ name = some [] → eclassName name = unnamed) ∧ ':' ∉ eclassName name := by
  refine ⟨?_, ?_, ?_⟩
  · rintro n rfl hn
    cases n with
    | nil => exact absurd rfl hn
    | cons c n => exact qnameToLocal_local _
  · rintro (rfl | rfl) <;> decide
  · unfold eclassName
    split
    · exact (qnameToLocal_local _).1
    · exact (qnameToLocal_local _).1

/-- The name can be empty, when html5lib's name ends in a colon (`<a:>`): the element is then written as
`<></>`, which is not MicroXML (though this library's parser takes it, `C76_full_statement_is_false`). -/
theorem C74_names_can_be_empty : eclassName (some "a:".toList) = [] ∧
    (Node.elem (eclassName (some "a:".toList)) [] []).encode = "<></>".toList := by decide

/-! ### C75 -/

/-- Being a given tree is a matter of the objects below only. -/
theorem rep_frame {h h' : Heap} :
    (∀ t p j, Rep h p j t → (∀ k, Reachable h [j] k → h'.obj k = h.obj k ∧ h'.xmlParent k = h.xmlParent k) →
      Rep h' p j t) ∧
    (∀ ts par cs, RepList h par cs ts → (∀ c ∈ cs, ∀ k, Reachable h [c] k →
      h'.obj k = h.obj k ∧ h'.xmlParent k = h.xmlParent k) → RepList h' par cs ts) := by
  apply Node.induct
  case text =>
    rintro s p j ⟨q, h1, h2⟩ hk
    obtain ⟨h3, h4⟩ := hk j (.root (List.mem_singleton.2 rfl))
    exact ⟨q, by rw [h3, h1], by rw [h4, h2]⟩
  case elem =>
    rintro n as ts ih p j ⟨cs, q, h1, h2, h3, h4⟩ hk
    obtain ⟨h5, h6⟩ := hk j (.root (List.mem_singleton.2 rfl))
    refine ⟨cs, q, by rw [h5, h1], by rw [h6, h2], h3, ih _ _ h4 ?_⟩
    intro c hc k hr
    apply hk
    have hcj : c ∈ h.children j := by simpa [Heap.children, h1, Obj.kids] using hc
    clear h5 h6 hk
    induction hr with
    | root hm => rw [List.mem_singleton.1 hm]; exact .child (.root (List.mem_singleton.2 rfl)) hcj
    | child _ hm ih => exact .child ih hm
  case nil => intro par cs h _; exact h
  case cons =>
    rintro x xs h1 h2 par cs ⟨c, r, rfl, h3, h4⟩ hk
    exact ⟨c, r, rfl, h1 _ _ h3 (hk c (List.mem_cons_self ..)),
      h2 _ _ h4 fun d hd => hk d (List.mem_cons_of_mem _ hd)⟩

theorem repList_mem {h : Heap} {par c : Id} : ∀ {ts : List Node} {cs : List Id}, RepList h par cs ts →
    c ∈ cs → ∃ u, Rep h (some par) c u := by
  intro ts
  induction ts with
  | nil => intro cs h hm; simp only [RepList] at h; subst h; cases hm
  | cons t ts ih =>
    intro cs h hm
    obtain ⟨d, rr, rfl, h1, h2⟩ := h
    rcases List.mem_cons.1 hm with rfl | hm
    · exact ⟨t, h1⟩
    · exact ih h2 hm

theorem rep_parent {h : Heap} {p : Option Id} {i : Id} {t : Node} (hr : Rep h p i t) : h.xmlParent i = p := by
  cases t with
  | text s => obtain ⟨_, _, hp⟩ := hr; exact hp
  | elem n as ts => obtain ⟨_, _, _, hp, _⟩ := hr; exact hp

theorem rep_child {h : Heap} {p : Option Id} {i c : Id} {t : Node} (hr : Rep h p i t)
    (hc : c ∈ h.children i) : ∃ u, Rep h (some i) c u := by
  cases t with
  | text s => obtain ⟨_, h1, _⟩ := hr; simp [Heap.children, h1, Obj.kids] at hc
  | elem n as ts =>
    obtain ⟨cs, _, h1, _, _, h4⟩ := hr
    exact repList_mem h4 (by simpa [Heap.children, h1, Obj.kids] using hc)

theorem below_rep {h : Heap} {p : Option Id} {i : Id} {t : Node} (hr : Rep h p i t) {k : Id}
    (hk : Reachable h [i] k) : ∃ q u, Rep h q k u := by
  induction hk with
  | root hm => rw [List.mem_singleton.1 hm]; exact ⟨_, _, hr⟩
  | child _ hm ih =>
    obtain ⟨q, u, hu⟩ := ih
    exact ⟨_, rep_child hu hm⟩

/-- Everything strictly below a node of a tree has a parent that is in the tree. -/
theorem below_parent {h : Heap} {p : Option Id} {i : Id} {t : Node} (hr : Rep h p i t) {k : Id}
    (hk : Reachable h [i] k) : k = i ∨ ∃ j, Reachable h [i] j ∧ h.xmlParent k = some j := by
  cases hk with
  | root hm => exact Or.inl (List.mem_singleton.1 hm)
  | @child j _ hj hm =>
    obtain ⟨q, u, hu⟩ := below_rep hr hj
    obtain ⟨u', hu'⟩ := rep_child hu hm
    exact Or.inr ⟨j, hj, rep_parent hu'⟩

/-- `xml_remove` of the first child, whatever it is. -/
theorem remove_first {h : Heap} {e c : Id} {n as cs p} (he : h.obj e = some (.elem n as (c :: cs) p))
    : h.xmlRemove e c = .ok ((h.unlink c).setChildren e cs) := by
  have hce : h.children e = c :: cs := by simp [Heap.children, he, Obj.kids]
  have hcc : h.pyEq c c = true := by simp [Heap.pyEq]
  unfold Heap.xmlRemove
  rw [he, hce]
  simp [hcc]

/-- **C75.** When html5lib has made `<html><head/><body>x...</body></html>`, `parse_lax_xml` returns `x` as
a tree of its own, unchanged and without parent. -/
theorem C75_lax_top_is_detached_partial {h : Heap} {ft head body top : Id} {n as nb ab qb others} {cs : List Id} {x : Node}
    {ts : List Node} (hft : Rep h none ft (.elem n as ts)) (hch : h.children ft = head :: body :: others)
    (hbody : h.obj body = some (.elem nb ab (top :: cs) qb)) (htop : Rep h (some body) top x) :
    ∃ h', h.laxTop ft = .ok top h' ∧ Rep h' none top x ∧ h'.children body = cs := by
  have hbp : h.xmlParent body = some ft := by
    obtain ⟨u, hu⟩ := rep_child hft (c := body) (by rw [hch]; simp)
    exact rep_parent hu
  have hftp : h.xmlParent ft = none := rep_parent hft
  have htp : h.xmlParent top = some body := rep_parent htop
  -- nothing below `top` is `ft`, `body`
  have hftn : ¬ Reachable h [top] ft := by
    intro hr
    rcases below_parent htop hr with rfl | ⟨j, -, hj⟩
    · rw [hftp] at htp; cases htp
    · rw [hftp] at hj; cases hj
  have hbn : ¬ Reachable h [top] body := by
    intro hr
    rcases below_parent htop hr with rfl | ⟨j, hj, hj'⟩
    · rw [hbp] at htp
      have : ft = body := by simpa using htp
      rw [this] at hftp; rw [hftp] at hbp; cases hbp
    · rw [hbp] at hj'
      cases hj'
      exact hftn hj
  have hne : top ≠ body := by
    rintro rfl
    exact hbn (.root (List.mem_singleton.2 rfl))
  -- nothing strictly below `top` is `top`
  have htn : ∀ u j, Reachable h [top] j → top ∈ h.children j → Rep h (some body) top u → False := by
    intro u j hj hm _
    obtain ⟨q, w, hw⟩ := below_rep htop hj
    obtain ⟨u', hu'⟩ := rep_child hw hm
    have := rep_parent hu'
    rw [htp] at this
    cases this
    exact hbn hj
  obtain ⟨o, hto⟩ := rep_alive htop
  have hcb : h.children body = top :: cs := by simp [Heap.children, hbody, Obj.kids]
  have hrm := remove_first hbody
  refine ⟨_, by unfold Heap.laxTop; rw [hch]; simp only [List.getElem?_cons_succ, List.getElem?_cons_zero]; rw [hcb]; simp only [List.getElem?_cons_zero]; rw [hrm], ?_, ?_⟩
  · -- the objects after the removal
    have hobj : ∀ k, ((h.unlink top).setChildren body cs).obj k =
        if k = body then some (.elem nb ab cs qb)
        else if k = top then (h.unlink top).obj top else h.obj k := by
      intro k
      have hb1 : (h.unlink top).obj body = some (.elem nb ab (top :: cs) qb) := by
        unfold Heap.unlink
        rw [hto]
        cases o <;> (simp only; rw [Heap.set_obj', if_neg (fun e => hne e.symm), hbody])
      rw [setChildren_obj hb1]
      split
      · rfl
      · split
        · rename_i hk; rw [hk]
        · rename_i hk
          unfold Heap.unlink
          rw [hto]
          cases o <;> (simp only; rw [Heap.set_obj', if_neg hk])
    have hsome : ∀ k, (((h.unlink top).setChildren body cs).obj k).isSome = (h.obj k).isSome := by
      intro k
      rw [hobj]
      split
      · rename_i hk; rw [hk, hbody]; rfl
      · split
        · rename_i hk
          rw [hk]
          unfold Heap.unlink
          rw [hto]
          cases o <;> simp [Heap.set_obj']
        · rfl
    have hpar : ∀ k, k ≠ top → ((h.unlink top).setChildren body cs).xmlParent k = h.xmlParent k := by
      intro k hk
      unfold Heap.xmlParent
      have hl : (((h.unlink top).setChildren body cs).obj k).bind Obj.link = (h.obj k).bind Obj.link := by
        rw [hobj, if_neg hk]
        split
        · rename_i hk; rw [hk, hbody]; rfl
        · rfl
      rw [hl]
      cases (h.obj k).bind Obj.link with
      | none => rfl
      | some j => simp only [Heap.deref, hsome]
    cases x with
    | text s =>
      obtain ⟨q, h1, h2⟩ := htop
      have hu : (h.unlink top).obj top = some (.text s none) := by
        unfold Heap.unlink; rw [h1]; simp [Heap.set_obj']
      refine ⟨none, ?_, ?_⟩
      · rw [hobj, if_neg hne, if_pos rfl, hu]
      · unfold Heap.xmlParent; rw [hobj, if_neg hne, if_pos rfl, hu]; rfl
    | elem n' as' ts' =>
      have htop' := htop
      obtain ⟨cs', q, h1, h2, h3, h4⟩ := htop'
      have hu : (h.unlink top).obj top = some (.elem n' as' cs' none) := by
        unfold Heap.unlink; rw [h1]; simp [Heap.set_obj']
      refine ⟨cs', none, ?_, ?_, h3, ?_⟩
      · rw [hobj, if_neg hne, if_pos rfl, hu]
      · unfold Heap.xmlParent; rw [hobj, if_neg hne, if_pos rfl, hu]; rfl
      · refine (rep_frame.2 ts' top cs' h4) ?_
        intro c hc k hk
        have hcj : c ∈ h.children top := by simpa [Heap.children, h1, Obj.kids] using hc
        have hkr : Reachable h [top] k ∧ k ≠ top := by
          have hup : ∀ k, Reachable h [c] k → Reachable h [top] k := by
            intro k hk
            induction hk with
            | root hm => rw [List.mem_singleton.1 hm]; exact .child (.root (List.mem_singleton.2 rfl)) hcj
            | child _ hm ih => exact .child ih hm
          refine ⟨hup k hk, ?_⟩
          rintro rfl
          cases hk with
          | root hm =>
            rw [← List.mem_singleton.1 hm] at hcj
            exact htn _ _ (.root (List.mem_singleton.2 rfl)) hcj htop
          | child hj hm => exact htn _ _ (hup _ hj) hm htop
        have hkb : k ≠ body := by rintro rfl; exact hbn hkr.1
        exact ⟨by rw [hobj, if_neg hkb, if_neg hkr.2], hpar k hkr.2⟩
  · have hb1 : (h.unlink top).obj body = some (.elem nb ab (top :: cs) qb) := by
      unfold Heap.unlink
      rw [hto]
      cases o <;> (simp only; rw [Heap.set_obj', if_neg (fun e => hne e.symm), hbody])
    show ((((h.unlink top).setChildren body cs).obj body).map Obj.kids).getD [] = cs
    rw [setChildren_obj hb1, if_pos rfl]; rfl

/-- `<html><head/><body><a/>z</body></html>`. -/
def exLax : Heap := ⟨5, fun i =>
  if i = 0 then some (.elem ['h'] [] [1, 2] none) else if i = 1 then some (.elem ['d'] [] [] (some 0))
  else if i = 2 then some (.elem ['b'] [] [3, 4] (some 0)) else if i = 3 then some (.elem ['a'] [] [] (some 2))
  else if i = 4 then some (.text ['z'] (some 2)) else none⟩

example : ∃ ts, Rep exLax none 0 (.elem ['h'] [] ts) ∧ exLax.children 0 = 1 :: 2 :: [] ∧
    Rep exLax (some 2) 3 (.elem ['a'] [] []) := by
  refine ⟨[.elem ['d'] [] [], .elem ['b'] [] [.elem ['a'] [] [], .text ['z']]], ?_, by decide, ?_⟩
  · refine ⟨[1, 2], none, rfl, rfl, by decide, 1, [2], rfl, ⟨[], some 0, rfl, rfl, by decide, rfl⟩, 2, [], rfl, ?_, rfl⟩
    exact ⟨[3, 4], some 0, rfl, rfl, by decide, 3, [4], rfl, ⟨[], some 2, rfl, rfl, by decide, rfl⟩,
      4, [], rfl, ⟨some 2, rfl, rfl⟩, rfl⟩
  · exact ⟨[], some 2, rfl, rfl, by decide, rfl⟩

/-- C75, errors: when there is nothing in the body the failure is an IndexError, not the promised
ValueError. -/
theorem C75_full_statement_is_false : ∃ h : Heap, Rep h none 0 (.elem ['h'] [] [.elem ['d'] [] [], .elem ['b'] [] []]) ∧
    h.laxTop 0 = .indexError := by
  refine ⟨⟨3, fun i => if i = 0 then some (.elem ['h'] [] [1, 2] none)
    else if i = 1 then some (.elem ['d'] [] [] (some 0))
    else if i = 2 then some (.elem ['b'] [] [] (some 0)) else none⟩, ?_, rfl⟩
  exact ⟨[1, 2], none, rfl, rfl, by decide, 1, [2], rfl, ⟨[], some 0, rfl, rfl, by decide, rfl⟩, 2, [], rfl,
    ⟨[], some 0, rfl, rfl, by decide, rfl⟩, rfl⟩

end Amara
