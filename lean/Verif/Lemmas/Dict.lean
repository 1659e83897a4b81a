import Verif.Spec.MicroXml
/-
Insertion-ordered dictionaries: assigning the attributes of a tag one after the other gives the
mapping `dictOf`.
-/
namespace Amara

theorem Attrs.set_map {f : Str → Str} {k v : Str} : ∀ {ns : List Str}, ns.Nodup →
    Attrs.set (ns.map fun n => (n, f n)) k v =
      (if k ∈ ns then ns else ns ++ [k]).map fun n => (n, if n = k then v else f n) := by
  intro ns
  induction ns with
  | nil => intro _; simp [Attrs.set]
  | cons n ns ih =>
    intro hnd
    have hnd' := List.nodup_cons.1 hnd
    simp only [List.map_cons, Attrs.set]
    by_cases h : n = k
    · subst h
      simp only [if_true, List.mem_cons, true_or, List.map_cons, List.cons.injEq, true_and]
      apply List.map_congr_left
      intro m hm
      have : m ≠ n := by rintro rfl; exact hnd'.1 hm
      simp [this]
    · simp only [h, if_false, ih hnd'.2]
      have : k ≠ n := fun h' => h h'.symm
      by_cases hk : k ∈ ns <;> simp [hk, this, h]

theorem firstNames_nodup (kvs : List (Str × Str)) : (firstNames kvs).Nodup := by
  induction kvs with
  | nil => simp [firstNames]
  | cons p r ih =>
    obtain ⟨k, v⟩ := p
    simp only [firstNames, List.nodup_cons]
    exact ⟨by simp, ih.sublist List.filter_sublist⟩

theorem firstNames_snoc (kvs : List (Str × Str)) (k v : Str) :
    firstNames (kvs ++ [(k, v)]) =
      if k ∈ firstNames kvs then firstNames kvs else firstNames kvs ++ [k] := by
  induction kvs with
  | nil => simp [firstNames]
  | cons p r ih =>
    obtain ⟨k', v'⟩ := p
    simp only [List.cons_append, firstNames, ih]
    by_cases h : k = k'
    · subst h
      simp only [List.mem_cons, true_or, if_true]
      split <;> simp
    · by_cases hk : k ∈ firstNames r <;> simp [h, hk]

theorem lastValue_snoc (kvs : List (Str × Str)) (k v k' : Str) :
    lastValue (kvs ++ [(k, v)]) k' = if k' = k then v else lastValue kvs k' := by
  simp only [lastValue, List.reverse_append, List.reverse_cons, List.reverse_nil, List.nil_append,
    List.cons_append, List.find?_cons]
  by_cases h : k = k'
  · subst h; simp
  · have h' : ¬ k' = k := fun e => h e.symm
    have : (k == k') = false := by simpa using h
    simp [h', this]

theorem dictOf_snoc (kvs : List (Str × Str)) (k v : Str) :
    dictOf (kvs ++ [(k, v)]) = (dictOf kvs).set k v := by
  simp only [dictOf]
  rw [Attrs.set_map (firstNames_nodup kvs), firstNames_snoc]
  simp only [lastValue_snoc]

theorem foldl_set_dictOf (kvs : List (Str × Str)) :
    kvs.foldl (fun (a : Attrs) p => a.set p.1 p.2) [] = dictOf kvs := by
  suffices H : ∀ (r : List (Str × Str)), r.reverse.foldl (fun (a : Attrs) p => a.set p.1 p.2) [] =
      dictOf r.reverse by simpa using H kvs.reverse
  intro r
  induction r with
  | nil => rfl
  | cons p r ih =>
    obtain ⟨k, v⟩ := p
    simp only [List.reverse_cons, List.foldl_append, List.foldl_cons, List.foldl_nil, ih, dictOf_snoc]

end Amara
