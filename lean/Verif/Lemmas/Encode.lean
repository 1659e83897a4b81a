import Verif.Lemmas.Escape
import Verif.Lemmas.Outcome
/-
Helper lemmas: what `xml_encode` writes is a spelling of the normal form of the element.
-/
namespace Amara

theorem Spells.append {lit : Char → Prop} {s w s' w'} (h : Spells lit s w) (h' : Spells lit s' w') :
    Spells lit (s ++ s') (w ++ w') := by
  induction h with
  | nil => exact h'
  | lit hc _ ih => exact .lit hc ih
  | named hc _ ih => simpa only [List.cons_append, List.append_assoc] using Spells.named hc ih
  | hex h1 h2 h3 h4 _ ih =>
    simpa only [List.cons_append, List.append_assoc] using Spells.hex h1 h2 h3 h4 ih

theorem Spells.nil_iff {lit : Char → Prop} {s w} (h : Spells lit s w) : s = [] ↔ w = [] := by
  cases h <;> simp

theorem consText_nil (ns : List Node) : consText [] ns = ns := by simp [consText]

theorem consText_append (s t : Str) (ns : List Node) :
    consText s (consText t ns) = consText (s ++ t) ns := by
  by_cases hs : s = []
  · subst hs; simp [consText_nil]
  by_cases ht : t = []
  · subst ht; simp [consText_nil]
  have hst : s ++ t ≠ [] := by simp [hs]
  cases ns with
  | nil => simp [consText, hs, ht]
  | cons x r => cases x <;> simp [consText, hs, ht]

theorem isContent_consText {s raw ns w} (hs : Spells TextLit s raw) (h : IsContent ns w) :
    IsContent (consText s ns) (raw ++ w) := by
  by_cases h0 : s = []
  · have : raw = [] := hs.nil_iff.1 h0
    subst h0 this
    simpa [consText_nil] using h
  cases h with
  | nil => simpa [consText, h0] using IsContent.text h0 hs .nil (by simp)
  | @text t raw' ns' w' h1 h2 h3 h4 =>
    have := IsContent.text (s := s ++ t) (by simp [h0]) (hs.append h2) h3 h4
    simpa [consText, h0] using this
  | @elem n kvs wa cs wc ns' w' w0 w1 w2 w3 w4 h1 h2 h3 h4 h5 h6 h7 h8 h9 =>
    have := IsContent.text h0 hs (IsContent.elem h1 h2 h3 h4 h5 h6 h7 h8 h9) (by simp [Node.isText])
    simpa [consText, h0] using this

theorem dictOf_nodup : ∀ {as : Attrs}, (as.map (·.1)).Nodup → dictOf as = as := by
  intro as h
  have h1 : ∀ (l : Attrs) (acc : Attrs), ((acc ++ l).map (·.1)).Nodup →
      l.foldl (fun m p => m.set p.1 p.2) acc = acc ++ l := by
    intro l
    induction l with
    | nil => intro acc _; simp
    | cons p r ih =>
      intro acc hn
      have : ∀ (m : Attrs), p.1 ∉ m.map (·.1) → m.set p.1 p.2 = m ++ [p] := by
        intro m
        induction m with
        | nil => intro _; rfl
        | cons q m ihm =>
          intro hq
          simp only [List.map_cons, List.mem_cons, not_or] at hq
          have : ¬ q.1 = p.1 := fun e => hq.1 e.symm
          obtain ⟨qk, qv⟩ := q
          simp only [Attrs.set, if_neg this, ihm hq.2, List.cons_append]
      have hp : p.1 ∉ acc.map (·.1) := by
        rw [List.map_append, List.map_cons, List.nodup_append] at hn
        intro hm
        exact hn.2.2 _ hm _ (by simp) rfl
      rw [List.foldl_cons, this acc hp, ih (acc ++ [p]) (by simpa using hn)]
      simp
  have := h1 as [] (by simpa using h)
  rw [foldl_set_dictOf] at this
  simpa using this

theorem encodeAttrs_isAttrs : ∀ {as : Attrs}, (∀ p ∈ as, IsName p.1 ∧ AttrValue p.2) →
    IsAttrs as (encodeAttrs as) := by
  intro as
  induction as with
  | nil => intro _; exact .nil
  | cons p r ih =>
    intro h
    obtain ⟨k, v⟩ := p
    obtain ⟨q, raw, hq, e, hs⟩ := quoteattr_spells (h (k, v) (by simp)).2
    rw [encodeAttrs, e]
    have := IsAttrs.cons (w1 := [' ']) (w2 := []) (by simp) (by decide) (h (k, v) (by simp)).1
      (by decide) hq hs (ih (fun p hp => h p (by simp [hp])))
    simpa using this

theorem escape_text {s : Str} (h : ∀ c ∈ s, Legal c) : Spells TextLit s (escape s) :=
  escape_spells s (fun c hc hp => ⟨h c hc, hp.1, hp.2.1, hp.2.2⟩)

theorem encode_isContent :
    (∀ x : Node, x.Writable → x.isText = false → ∀ d, IsContent [x.norm] (x.encodeI [] d)) ∧
    (∀ xs : List Node, Node.WritableList AttrValue xs → ∀ d,
      IsContent (Node.normList xs) (Node.encodeChildren [] d xs)) := by
  have helem : ∀ (n : Str) (as : Attrs) (cs : List Node) (d : Nat) (ns : List Node) (w : Str),
      (Node.elem n as cs).Writable → IsContent (Node.normList cs) (Node.encodeChildren [] d cs) →
      IsContent ns w →
      IsContent ((Node.elem n as cs).norm :: ns) ((Node.elem n as cs).encodeI [] d ++ w) := by
    intro n as cs d ns w hw hc hns
    simp only [Node.Writable, Node.WritableWith] at hw
    have := IsContent.elem (w0 := []) (w1 := []) (w2 := []) (w3 := []) (w4 := []) hw.1
      (encodeAttrs_isAttrs hw.2.1) hc hns (by decide) (by decide) (by decide) (by decide) (by decide)
    rw [dictOf_nodup hw.2.2.1] at this
    simpa [Node.norm, Node.encodeI, indentRun] using this
  apply Node.induct
  · intro n as cs ih hw _ d
    simpa using helem n as cs d [] [] hw (ih (by
      simp only [Node.Writable, Node.WritableWith] at hw; exact hw.2.2.2) d) .nil
  · intro s _ h; simp [Node.isText] at h
  · intro _ d; exact .nil
  · intro x xs ihx ihxs hw d
    simp only [Node.WritableList] at hw
    cases x with
    | text s =>
      simp only [Node.normList, Node.encodeChildren]
      exact isContent_consText (escape_text (by simpa [Node.WritableWith] using hw.1)) (ihxs hw.2 d)
    | elem n as cs =>
      have h1 := ihx hw.1 rfl (d + 1)
      have h2 := ihxs hw.2 d
      simp only [Node.normList, Node.encodeChildren, indentRun, if_true, List.nil_append]
      -- take the element apart again
      generalize hy : (Node.elem n as cs).encodeI [] (d + 1) = y at h1
      simp only [Node.norm] at h1 ⊢
      generalize hz : [Node.elem n as (Node.normList cs)] = z at h1
      cases h1 with
      | nil => cases hz
      | text => cases hz
      | elem g1 g2 g3 g4 g5 g6 g7 g8 g9 =>
        cases hz
        cases g4
        have := IsContent.elem g1 g2 g3 h2 g5 g6 g7 g8 g9
        simpa using this

theorem encode_isDoc {e : Node} (h : e.Writable) (he : e.isText = false) : IsDoc e.norm e.encode := by
  refine ⟨?_, [], e.encode, [], by decide, by decide, encode_isContent.1 e h he 0, by simp⟩
  cases e with
  | elem => rfl
  | text => cases he

end Amara
