import Verif.Lemmas.AttrDict
/-
C117: the attributes of an element are its own.
-/
namespace Amara

/-- C117, partial: if the program hands over each mapping at most once and leaves it alone after that, the attributes
of all elements are at any time as if each element had its own copy.  Missing: programs that hand over one mapping
twice, or change it after that, for which it is false (`C117_full_statement_is_false`, `C117_shared_mapping`). -/
theorem C117_as_if_copied_partial (p : List AOp) (h : Careful ⟨[], []⟩ [] p) :
    (DMem.empty.run p).attributes = (AVal.run ⟨[], []⟩ p).attrs :=
  arel_run p arel_empty h

theorem run_append_d (m : DMem) (p q : List AOp) : m.run (p ++ q) = (m.run p).run q := List.foldl_append

theorem run_append_v (v : AVal) (p q : List AOp) : v.run (p ++ q) = (v.run p).run q := List.foldl_append

/-- Changing the attributes of an element of a parsed tree changes those of that element and of no other, whatever
trees are being built at the time, and whatever was changed, copied or made without a mapping after each event. -/
theorem C117_parsed_elements (l : List (Event × List AOp)) (hl : ∀ x ∈ l, ∀ op ∈ x.2, op.onElements)
    (e : Nat) (f : Attrs → Attrs) :
    ((DMem.empty.run (builderProgram 0 l)).step (.change e f)).attributes =
      (DMem.empty.run (builderProgram 0 l)).attributes.modify e f := by
  have h1 : Careful ⟨[], []⟩ [] (builderProgram 0 l) := careful_builder l rfl (fun _ h => nomatch h) hl
  have hl2 : ∀ x ∈ l ++ [(Event.chars [], [AOp.change e f])], ∀ op ∈ x.2, op.onElements := by
    intro x hx
    rw [List.mem_append, List.mem_singleton] at hx
    rcases hx with hx | rfl
    · exact hl x hx
    · intro op hop; simp only [List.mem_singleton] at hop; subst hop; trivial
  have hb : ∀ (l : List (Event × List AOp)) (n : Nat), builderProgram n (l ++ [(Event.chars [], [AOp.change e f])]) =
      builderProgram n l ++ [.change e f] := by
    intro l
    induction l with
    | nil => intro n; rfl
    | cons x l ih => intro n; obtain ⟨ev, p⟩ := x; simp only [List.cons_append, builderProgram, ih, List.append_assoc]
  have h2 : Careful ⟨[], []⟩ [] (builderProgram 0 l ++ [.change e f]) := by
    rw [← hb]; exact careful_builder _ rfl (fun _ h => nomatch h) hl2
  have e1 := C117_as_if_copied_partial _ h1
  have e2 := C117_as_if_copied_partial _ h2
  rw [run_append_d, run_append_v] at e2
  rw [e1]
  exact e2

/-- The elements of a parsed tree show the attributes of their start tags. -/
theorem C117_parsed_attributes (evs : List Event) :
    (DMem.empty.run (builderProgram 0 (evs.map fun ev => (ev, [])))).attributes =
      evs.filterMap fun ev => match ev with | .start _ as _ => some as | _ => none := by
  have hc : Careful ⟨[], []⟩ [] (builderProgram 0 (evs.map fun ev => (ev, []))) := by
    refine careful_builder _ rfl (fun _ h => nomatch h) ?_
    intro x hx op hop
    obtain ⟨ev, _, rfl⟩ := List.mem_map.1 hx
    cases hop
  rw [C117_as_if_copied_partial _ hc]
  suffices H : ∀ (evs : List Event) (v : AVal),
      (v.run (builderProgram v.held.length (evs.map fun ev => (ev, [])))).attrs =
        v.attrs ++ evs.filterMap fun ev => match ev with | .start _ as _ => some as | _ => none by
    exact H evs ⟨[], []⟩
  intro evs
  induction evs with
  | nil => intro v; simp [builderProgram, AVal.run]
  | cons ev evs ih =>
    intro v
    cases ev with
    | start n as anc =>
      have := ih ⟨v.held ++ [as], v.attrs ++ [as]⟩
      simp only [List.length_append, List.length_singleton] at this
      simp only [List.map_cons, builderProgram, builderOps, List.append_nil, List.cons_append, List.nil_append,
        AVal.run, List.foldl_cons, AVal.step]
      rw [List.getElem?_append_right (Nat.le_refl _), Nat.sub_self]
      simp only [List.getElem?_cons_zero]
      simp only [AVal.run] at this
      rw [this]
      simp
    | chars s =>
      simp only [List.map_cons, builderProgram, builderOps, List.append_nil, List.nil_append]
      rw [ih v]; simp
    | stop n anc =>
      simp only [List.map_cons, builderProgram, builderOps, List.append_nil, List.nil_append]
      rw [ih v]; simp

/-- The same for the subtrees that a tree sender with one pattern sends, also while it goes on. -/
theorem C117_one_pattern (pattern : List (Stage Event)) (l : List (Event × List AOp))
    (hl : ∀ x ∈ l, ∀ op ∈ x.2, op.onElements) :
    (DMem.empty.run (senderProgram 0 (newSender [pattern]) l)).attributes =
      (AVal.run ⟨[], []⟩ (senderProgram 0 (newSender [pattern]) l)).attrs :=
  C117_as_if_copied_partial _ (careful_sender l rfl (fun _ h => nomatch h) (by simp [newSender, prepPatterns]) hl)

/-- Two elements given the same mapping share it, whatever was done before, unless it is empty: a change of the
attributes of either shows in both. -/
theorem C117_shared_mapping (p : List AOp) (as : Attrs) (has : as ≠ []) (f : Attrs → Attrs) (second : Bool) :
    let m := DMem.empty.run p
    (m.run [.mapping as, .element (some m.held.length), .element (some m.held.length),
      .change (m.elems.length + cond second 1 0) f]).attributes = m.attributes ++ [f as, f as] := by
  intro m
  have hm : DOk m := DOk.run p dok_empty
  have hd : ({ m with dicts := m.dicts ++ [as], held := m.held ++ [m.dicts.length] } : DMem).dict m.dicts.length = as :=
    dict_append_self
  have hidx : ∀ (l : List Nat) (x : Nat), (l ++ [x])[l.length]? = some x := by intro l x; simp
  simp only [DMem.run, List.foldl_cons, List.foldl_nil, DMem.step, hidx]
  unfold DMem.make
  rw [hd, if_neg has]
  have hd2 : (⟨m.dicts ++ [as], m.held ++ [m.dicts.length], m.elems ++ [m.dicts.length]⟩ : DMem).dict
      m.dicts.length = as := dict_append_self
  simp only [hidx]
  rw [hd2, if_neg has]
  have hget : (m.elems ++ [m.dicts.length] ++ [m.dicts.length])[m.elems.length + cond second 1 0]? =
      some m.dicts.length := by
    cases second <;> simp
  simp only [hget, DMem.attributes, DMem.modify, List.map_append, List.map_cons, List.map_nil]
  have hself : ((m.dicts ++ [as]).modify m.dicts.length f).getD m.dicts.length [] = f as := by
    rw [dict_modify_self (by simp), dict_append_self]
  have hold : ∀ d ∈ m.elems, ((m.dicts ++ [as]).modify m.dicts.length f).getD d [] = m.dict d := by
    intro d hd
    have hlt := hm.elt d hd
    rw [dict_modify_ne (by omega), dict_append_lt hlt]; rfl
  have hmap : m.elems.map (⟨(m.dicts ++ [as]).modify m.dicts.length f, m.held ++ [m.dicts.length],
      m.elems ++ [m.dicts.length] ++ [m.dicts.length]⟩ : DMem).dict = m.elems.map m.dict :=
    List.map_congr_left hold
  rw [hmap]
  simp only [DMem.dict]
  rw [hself]
  simp

/-- An empty mapping is not shared: the first element given it gets a new one, and so does the second. -/
theorem C117_empty_mapping (p : List AOp) (f : Attrs → Attrs) :
    let m := DMem.empty.run p
    (m.run [.mapping [], .element (some m.held.length), .element (some m.held.length),
      .change m.elems.length f]).attributes = m.attributes ++ [f [], []] := by
  intro m
  have hm : DOk m := DOk.run p dok_empty
  have hidx : ∀ (l : List Nat) (x : Nat), (l ++ [x])[l.length]? = some x := by intro l x; simp
  have hd : (⟨m.dicts ++ [[]], m.held ++ [m.dicts.length], m.elems⟩ : DMem).dict m.dicts.length = [] :=
    dict_append_self
  have hd2 : (⟨m.dicts ++ [[]] ++ [[]], m.held ++ [m.dicts.length], m.elems ++ [m.dicts.length + 1]⟩ : DMem).dict
      m.dicts.length = [] := by
    simp only [DMem.dict]
    rw [dict_append_lt (by simp), dict_append_self]
  simp only [DMem.run, List.foldl_cons, List.foldl_nil, DMem.step, hidx]
  unfold DMem.make
  rw [hd, if_pos rfl]
  simp only [DMem.bare, hidx, List.length_append, List.length_singleton]
  rw [hd2, if_pos rfl]
  have hget : (m.elems ++ [m.dicts.length + 1] ++ [m.dicts.length + 1 + 1])[m.elems.length]? =
      some (m.dicts.length + 1) := by simp
  simp only [hget, DMem.attributes, DMem.modify, List.map_append, List.map_cons, List.map_nil]
  have h1 : ((m.dicts ++ [[]] ++ [[]] ++ [[]]).modify (m.dicts.length + 1) f).getD (m.dicts.length + 1) [] = f [] := by
    rw [dict_modify_self (by simp), dict_append_lt (by simp)]
    congr 1
    have := @dict_append_self (m.dicts ++ [[]]) []
    rw [List.length_append, List.length_singleton] at this
    exact this
  have h2 : ((m.dicts ++ [[]] ++ [[]] ++ [[]]).modify (m.dicts.length + 1) f).getD (m.dicts.length + 1 + 1) [] = [] := by
    rw [dict_modify_ne (by omega)]
    have := @dict_append_self (m.dicts ++ [[]] ++ [[]]) []
    rw [List.length_append, List.length_append, List.length_singleton] at this
    exact this
  have hold : ∀ d ∈ m.elems,
      ((m.dicts ++ [[]] ++ [[]] ++ [[]]).modify (m.dicts.length + 1) f).getD d [] = m.dict d := by
    intro d hd
    have hlt := hm.elt d hd
    rw [dict_modify_ne (by omega), dict_append_lt (by simp; omega), dict_append_lt (by simp; omega),
      dict_append_lt hlt]; rfl
  have hmap : m.elems.map (⟨(m.dicts ++ [[]] ++ [[]] ++ [[]]).modify (m.dicts.length + 1) f,
      m.held ++ [m.dicts.length], m.elems ++ [m.dicts.length + 1] ++ [m.dicts.length + 1 + 1]⟩ : DMem).dict =
      m.elems.map m.dict := List.map_congr_left hold
  rw [hmap]
  simp only [DMem.dict]
  rw [h1, h2]
  simp

/-- C117 in full is false: an element made with the attributes of another shares them; and the elements that a sender
with two patterns makes of the same tag, and sends to two sinks, share theirs. -/
theorem C117_full_statement_is_false :
    (DMem.empty.run [.mapping [(['k'], ['1'])], .element (some 0), .hold 0, .element (some 1),
      .change 1 (·.set ['k'] ['2'])]).attributes = [[(['k'], ['2'])], [(['k'], ['2'])]] ∧
    (∃ s, (newSender [[.name ['a']], [.name ['a']]]).run
        [(.start ['a'] [(['k'], ['1'])] [], fun _ => none), (.stop ['a'] [], fun _ => none)] =
      ([[], [.send 0 (.elem ['a'] [(['k'], ['1'])] []), .send 1 (.elem ['a'] [(['k'], ['1'])] [])]], some s)) ∧
    (DMem.empty.run (senderProgram 0 (newSender [[.name ['a']], [.name ['a']]])
      [(.start ['a'] [(['k'], ['1'])] [], []), (.stop ['a'] [], [.change 0 (·.set ['k'] ['2'])])])).attributes =
        [[(['k'], ['2'])], [(['k'], ['2'])]] := by
  refine ⟨by decide, ⟨_, rfl⟩, by decide⟩

/-- A parse of `<a k='1'><b></b></a>` during which the client changes `a`, copies it, and changes the copy. -/
example : (∀ x ∈ [(Event.start ['a'] [(['k'], ['1'])] [], [AOp.change 0 (·.set ['k'] ['2']), .clone 0]),
      (.start ['b'] [] [['a']], [.change 1 (·.set ['k'] ['3'])])], ∀ op ∈ x.2, AOp.onElements op) ∧
    (DMem.empty.run (builderProgram 0 [(.start ['a'] [(['k'], ['1'])] [], [.change 0 (·.set ['k'] ['2']), .clone 0]),
      (.start ['b'] [] [['a']], [.change 1 (·.set ['k'] ['3'])])])).attributes =
        [[(['k'], ['2'])], [(['k'], ['3'])], []] := by
  refine ⟨?_, by decide⟩
  intro x hx op hop
  simp only [List.mem_cons, List.not_mem_nil, or_false] at hx
  rcases hx with rfl | rfl <;> simp only [List.mem_cons, List.not_mem_nil, or_false] at hop
  · rcases hop with rfl | rfl <;> trivial
  · subst hop; trivial

/-- A careful program that does use mappings of its own. -/
example : Careful ⟨[], []⟩ [] [.mapping [(['k'], ['1'])], .changeHeld 0 (·.set ['k'] ['2']), .element (some 0),
    .element none, .mapping [(['j'], ['1'])], .assign 1 1, .change 0 (·.set ['j'] ['3'])] := by
  simp [Careful]

end Amara
