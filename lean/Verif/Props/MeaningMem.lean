import Verif.Spec.MeaningMem
import Verif.Props.Meaning
import Verif.Props.XHeap
/-
C156 on objects in memory: what a query on an element object yields after any program of edits.
-/
namespace Amara

variable {F : Type}

theorem spot_inMemory {h : Heap} {t : Id} {v : Spot} {x : Mem.Item F} (hx : (v.item : Item F).StandsFor h t x) : v.InMemory h t x := by
  cases v <;> cases x <;> simp_all [Spot.item, Item.StandsFor, Spot.InMemory]

theorem inMemory_spot {h : Heap} {t : Id} {v : Spot} {x : Mem.Item F} (hx : v.InMemory h t x) : (v.item : Item F).StandsFor h t x := by
  cases v with
  | root => cases hx; rfl
  | «at» p => obtain ⟨i, hi, rfl⟩ := hx; exact hi

/-- C156: in memory. `e.xml_xpath(…)` of an element object `e` yields objects only, raises nothing, and what it yields are the
objects at the places the path leads to, and no others. -/
theorem C156_on_objects (fo : FloatOps F) {h : Heap} {t : Id} {doc : Node} (hr : Rep h none t doc) (hne : doc.NoEmptyText) (hdict : doc.Dicts)
    (vars : Str → Option (Mem.Item F)) (hv : ∃ vars₀, VarsStandFor h t vars₀ vars) {k : Nat} (hk : doc.count ≤ k) (n : Nat) {q : Path} {i : Id} (hq : doc.ElemAt q)
    (hi : h.locate t q = some i) {s : Str} {p : CorePath} (hok : p.Ok) (hs : X.xparse fo s = some (.ok p.expr)) :
    ∃ xs, Mem.xmlXPath fo h k vars n i (.str s) = ⟨xs, .done⟩ ∧
      ∀ x, x ∈ xs ↔ ∃ v, p.Leads doc (if q = [] then .root else .at q) v ∧ v.InMemory h t x := by
  obtain ⟨vars₀, hv⟩ := hv
  have hd : doc.isText = false := by
    cases doc with
    | text s =>
      cases q with
      | nil => obtain ⟨_, _, _, hq⟩ := hq; cases hq
      | cons _ _ => obtain ⟨_, _, _, hq⟩ := hq; cases hq
    | elem _ _ _ => rfl
  obtain ⟨vs, h1, h2⟩ := path_means (queryEnv fo vars₀ doc) hne hdict n p hok
    (if q = [] then .root else .at q) (by split <;> first | trivial | exact hq)
  have h0 : xmlXPath fo vars₀ n doc q (.str s) = ⟨vs.map Spot.item, .done⟩ := by
    simp only [xmlXPath, parseText_eq hs, contextItem]
    rw [← h1]
    by_cases hq' : q = [] <;> simp only [hq', if_true, if_false] <;> rfl
  obtain ⟨hl, hx, ht⟩ := C153_xml_xpath fo hr hd hk hv n hi s
  rw [h0] at hl hx ht
  refine ⟨(Mem.xmlXPath fo h k vars n i (.str s)).items, ?_, fun x => ?_⟩
  · generalize Mem.xmlXPath fo h k vars n i (.str s) = r at ht
    cases r
    cases ht
    rfl
  · rw [List.length_map] at hl
    simp only [List.getElem?_map] at hx
    constructor
    · intro hm
      obtain ⟨j, hj, rfl⟩ := List.getElem_of_mem hm
      have hj' : j < vs.length := by omega
      refine ⟨vs[j], (h2 _).1 (List.getElem_mem _), spot_inMemory (hx j _ _ ?_ (List.getElem?_eq_getElem hj))⟩
      rw [List.getElem?_eq_getElem hj']; rfl
    · rintro ⟨v, hv', hm⟩
      obtain ⟨j, hj, rfl⟩ := List.getElem_of_mem ((h2 v).2 hv')
      have hj' : j < (Mem.xmlXPath fo h k vars n i (.str s)).items.length := by omega
      have := hx j vs[j].item _ (by rw [List.getElem?_eq_getElem hj]; rfl) (List.getElem?_eq_getElem hj')
      rw [(C153_one_to_one hr (inMemory_spot hm) this).1 rfl]
      exact List.getElem_mem _

/-- C156: and so after any program that parses, makes, inserts, removes and changes nodes, whatever the collector did: on every
element of every tree the program holds, the query yields the objects at the places the path leads to, and no others. -/
theorem C156_after_any_program (fo : FloatOps F) {h : Heap} {T : Forest} (hs : EditSteps Heap.empty (fun _ => none) h T) {r : Id}
    {doc : Node} (ht : T r = some doc) (hne : doc.NoEmptyText) (hdict : doc.Dicts) {k : Nat} (hk : doc.count ≤ k) (n : Nat) {q : Path}
    (hq : doc.ElemAt q) {s : Str} {p : CorePath} (hok : p.Ok) (hp : X.xparse fo s = some (.ok p.expr)) :
    ∃ i xs, h.locate r q = some i ∧ Mem.xmlXPath fo h k (fun _ => none) n i (.str s) = ⟨xs, .done⟩ ∧
      ∀ x, x ∈ xs ↔ ∃ v, p.Leads doc (if q = [] then .root else .at q) v ∧ v.InMemory h r x := by
  have hr := C140_memory_is_the_forest hs ht
  have hq' := hq
  obtain ⟨m, as, cs, he⟩ := hq'
  obtain ⟨i, hi⟩ := rep_locate q hr he
  obtain ⟨xs, h1, h2⟩ := C156_on_objects fo hr hne hdict (fun _ => none) ⟨fun _ => none, fun _ => trivial⟩ hk n hq hi hok hp
  exact ⟨i, xs, hi, h1, h2⟩

example : X.xparse noFloats "//d[@k='v']".toList = some (.ok (CorePath.expr (.filter (.anywhere (.step .child ['d'])) (.attrIs ['k'] ['v'])))) := by
  with_unfolding_all rfl
-- the program of C140: in the end `c` holds what was in `a`; the query `//d[@k='v']` on `c` yields the object that was made second
example : ∃ h T, EditSteps Heap.empty (fun _ => none) h T ∧
    T 3 = some (.elem ['c'] [] [.elem ['d'] [(['k'], ['v'])] [.text ['x']]]) ∧
    Mem.xmlXPath noFloats h 3 (fun _ => none) 0 3 (.parsed (CorePath.expr (.filter (.anywhere (.step .child ['d'])) (.attrIs ['k'] ['v'])))) =
      ⟨[.obj 1], .done⟩ ∧
    (Spot.at [0]).InMemory (F := NoF) h 3 (.obj 1) := by
  refine ⟨_, _, .tail (.tail (.tail (.tail (.tail (.tail (.tail (.tail (.tail .refl
    (.newElement ['a'] [])) (.newElement ['b'] []))
    (.insertString (r := 1) (p := []) (e := 1) (child := .str ['x']) (i := -1) rfl rfl (.inl rfl) rfl))
    (.insertTree (r := 0) (p := []) (e := 0) (d := 1) (i := -1) rfl rfl rfl rfl (by decide) rfl))
    (.newElement ['c'] []))
    (.remove (r := 0) (p := []) (e := 0) (k := 0) (c := 1) rfl rfl rfl rfl (fun _ h => (by cases h)) rfl))
    (.insertTree (r := 3) (p := []) (e := 3) (d := 1) (i := -1) rfl rfl rfl rfl (by decide) rfl))
    (.attributes (r := 3) (p := [0]) (e := 1) (fun _ => [(['k'], ['v'])]) rfl rfl))
    (.rename (r := 3) (p := [0]) (e := 1) ['d'] rfl rfl), rfl, ?_, 1, rfl, rfl⟩
  · with_unfolding_all rfl

end Amara
