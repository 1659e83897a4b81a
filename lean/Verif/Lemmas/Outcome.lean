import Verif.Lemmas.Final
/-
Helper lemmas for the parser properties: outcomes of whole calls.
-/
namespace Amara

theorem run_more {done : Bool} : ∀ (n k : Nat) (s : PState),
    (∀ s', (run done n s).2 ≠ .running s') → run done (n + k) s = run done n s := by
  intro n
  induction n with
  | zero => intro k s h; exact absurd rfl (h s)
  | succ n ih =>
    intro k s h
    rw [show n + 1 + k = (n + k) + 1 by omega]
    simp only [run] at h ⊢
    split
    · rename_i s1 evs hs
      rw [ih k s1 (by simpa [hs] using h)]
    · rfl
    · rfl

theorem send_never (s : PState) {frag : Str} (hf : frag ≠ []) (done : Bool) :
    (send (.awaiting s) frag done).2.1 = .never ↔
      ∀ n, ∃ s', (run done n (s.app frag)).2 = .running s' := by
  rw [send_awaiting s hf]
  constructor
  · intro h n
    obtain ⟨s', hs'⟩ : ∃ s', (exec done (s.app frag)).2 = .running s' := by
      revert h
      cases (exec done (s.app frag)).2 with
      | paused s' => intro h; cases h
      | raised e => intro h; cases h
      | running s' => intro _; exact ⟨s', rfl⟩
    apply Classical.byContradiction
    intro hn
    have hn' : ∀ s', (run done n (s.app frag)).2 ≠ .running s' := fun s' h => hn ⟨s', h⟩
    have h1 := run_more n (enough (s.app frag)) (s.app frag) hn'
    have h2 := run_eq_exec (done := done) (s := s.app frag) (n := n + enough (s.app frag)) (by omega)
    rw [h1] at h2
    exact hn' s' (by rw [h2]; exact hs')
  · intro h
    obtain ⟨s', hs'⟩ := h (enough (s.app frag))
    have : (exec done (s.app frag)).2 = .running s' := hs'
    rw [this]

theorem exec_stuck {s s' : PState} {evs} (r : Reach true s evs s') (h : step true s' = .cont s' []) :
    exec true s = (evs, .running s') := by
  rw [exec_reach r, exec, run_fix h]; simp

theorem dropName_of_all {r : Str} (h : ∀ d ∈ r, isNameChar d = true) : dropName r = [] := by
  induction r with
  | nil => rfl
  | cons c r ih =>
    simp only [dropName, h c (by simp), if_true]
    exact ih (fun d hd => h d (by simp [hd]))

/-- An unfinished tag keeps a final fragment from returning. -/
theorem stuck_partialTag {p : Str} (hp : PartialTag p) (pe gi stk) :
    ∃ s', Reach true ⟨.preTagGi, p, pe, gi, [], stk⟩ [] s' ∧ step true s' = .cont s' [] := by
  have nameCase : ∀ {w0 n : Str}, Space w0 → IsName n →
      ∃ s', Reach true ⟨.preTagGi, w0 ++ n, pe, gi, [], stk⟩ [] s' ∧ step true s' = .cont s' [] := by
    intro w0 n hw0 hn
    obtain ⟨c, r, rfl, hc, hr⟩ := isName_iff.1 hn
    refine ⟨⟨.preTagGi, c :: r, false, gi, [], stk⟩, .one ?_, ?_⟩
    · simp [step, stepTagGi, dropWs_space_cons hw0 (isWs_nameStart hc), (nameStart_ne hc).1, hc,
        dropName_of_all hr, wait]
    · simp [step, stepTagGi, dropWs_of_notWs (isWs_nameStart hc), (nameStart_ne hc).1, hc,
        dropName_of_all hr, wait]
  -- a start tag up to its attributes
  have attrsCase : ∀ {w0 n kvs wa} (t : Str), Space w0 → IsName n → IsAttrs kvs wa →
      NotNameHead (wa ++ t) →
      Reach true ⟨.preTagGi, w0 ++ (n ++ (wa ++ t)), pe, gi, [], stk⟩ []
        ⟨.completeTag, t, false, n, dictOf kvs, stk⟩ := by
    intro w0 n kvs wa t hw0 hn ha hnn
    obtain ⟨c, r, rfl, hc, hr⟩ := isName_iff.1 hn
    obtain ⟨y, t', hy, hyn⟩ := hnn
    have htd := takeName_app hr hyn t'
    rw [← hy] at htd
    have hne : wa ++ t ≠ [] := by rw [hy]; simp
    have s1 : step true ⟨.preTagGi, w0 ++ ((c :: r) ++ (wa ++ t)), pe, gi, [], stk⟩ =
        .cont ⟨.completeTag, wa ++ t, false, c :: r, [], stk⟩ [] := by
      simp only [step, stepTagGi, List.cons_append, dropWs_space_cons hw0 (isWs_nameStart hc),
        (nameStart_ne hc).1, and_false, if_false, hc, if_true, htd.1, htd.2, hne]
      simp
    have r2 := reach_attrs (done := true) ha t (c :: r) [] stk
    rw [foldl_set_dictOf] at r2
    exact .head s1 r2
  cases hp with
  | @space w0 hw0 =>
    have : dropWs p = [] := (dropWs_nil_iff _).2 hw0
    refine ⟨⟨.preTagGi, [], false, gi, [], stk⟩, .one ?_, ?_⟩
    · simp [step, stepTagGi, this, wait]
    · simp [step, stepTagGi, dropWs, wait]
  | name hw0 hn => exact nameCase hw0 hn
  | @attrs w0 n kvs wa w1 hw0 hn ha hw1 =>
    cases hw : wa ++ w1 with
    | nil => rw [List.append_nil]; exact nameCase hw0 hn
    | cons y t' =>
      rw [← hw]
      have hnn : NotNameHead (wa ++ w1) := by
        cases w1 with
        | nil =>
          cases ha with
          | nil => cases hw
          | @cons k v raw w1 w2 q kvs w hne hw1 =>
            cases w1 with
            | nil => exact absurd rfl hne
            | cons c w1 =>
              exact ⟨c, _, rfl, isNameChar_ws ((isWs_iff c).2 (hw1 c (by simp)))⟩
        | cons c w1 =>
          exact notNameHead_attrs ha ⟨c, w1, rfl, isNameChar_ws ((isWs_iff c).2 (hw1 c (by simp)))⟩
      have R := attrsCase w1 hw0 hn ha hnn
      have hd : dropWs w1 = [] := (dropWs_nil_iff _).2 hw1
      refine ⟨⟨.completeTag, [], false, n, dictOf kvs, stk⟩, R.trans (.one ?_), ?_⟩
      · simp [step, stepCompleteTag, hd, wait]
      · simp [step, stepCompleteTag, dropWs, wait]
  | @attr w0 n kvs wa w1 k w2 hw0 hn ha hw1n hw1 hk hw2 =>
    obtain ⟨ck, rk, rfl, hck, hrk⟩ := isName_iff.1 hk
    have hnn : NotNameHead (wa ++ (w1 ++ (ck :: rk ++ w2))) := by
      apply notNameHead_attrs ha
      cases w1 with
      | nil => exact absurd rfl hw1n
      | cons x w1 => exact ⟨x, _, rfl, isNameChar_ws ((isWs_iff x).2 (hw1 x (by simp)))⟩
    have R := attrsCase _ hw0 hn ha hnn
    have s3 : step true ⟨.completeTag, w1 ++ (ck :: rk ++ w2), false, n,
        dictOf kvs, stk⟩ = .cont ⟨.attribute, ck :: rk ++ w2, false, n, dictOf kvs, stk⟩ [] := by
      simp [step, stepCompleteTag, dropWs_space_cons hw1 (isWs_nameStart hck), hck]
    refine ⟨_, R.trans (.one s3), ?_⟩
    cases w2 with
    | nil =>
      simp [step, stepAttribute, dropName_of_all hrk, wait]
    | cons x w2 =>
      have hx := isNameChar_ws ((isWs_iff x).2 (hw2 x (by simp)))
      have htd := takeName_app hrk hx w2
      have hd : dropWs (x :: w2) = [] := (dropWs_nil_iff _).2 hw2
      simp [step, stepAttribute, htd.2, hd, wait]
  | @slash w2 w3 hw2 hw3 =>
    have hd : dropWs w3 = [] := (dropWs_nil_iff _).2 hw3
    have s1 : step true ⟨.preTagGi, w2 ++ '/' :: w3, pe, gi, [], stk⟩ =
        .cont ⟨.preCompleteTagGi, w3, true, gi, [], stk⟩ [] := by
      simp [step, stepTagGi, dropWs_space_cons hw2 (c := '/') (by decide)]
    refine ⟨⟨.preCompleteTagGi, [], true, gi, [], stk⟩, .head s1 (.one ?_), ?_⟩
    · simp [step, stepTagGi, hd, wait]
    · simp [step, stepTagGi, dropWs, wait]
  | @endName w2 w3 n w4 hw2 hw3 hn hw4 =>
    obtain ⟨c, r, rfl, hc, hr⟩ := isName_iff.1 hn
    have s1 : step true ⟨.preTagGi, w2 ++ '/' :: (w3 ++ ((c :: r) ++ w4)), pe, gi, [], stk⟩ =
        .cont ⟨.preCompleteTagGi, w3 ++ ((c :: r) ++ w4), true, gi, [], stk⟩ [] := by
      simp [step, stepTagGi, dropWs_space_cons hw2 (c := '/') (by decide)]
    cases w4 with
    | nil =>
      refine ⟨⟨.preCompleteTagGi, c :: r, true, gi, [], stk⟩, .head s1 (.one ?_), ?_⟩
      · simp [step, stepTagGi, dropWs_space_cons hw3 (isWs_nameStart hc), hc,
          dropName_of_all hr, wait]
      · simp [step, stepTagGi, dropWs_of_notWs (isWs_nameStart hc), hc,
          dropName_of_all hr, wait]
    | cons x w4 =>
      have hx := isNameChar_ws ((isWs_iff x).2 (hw4 x (by simp)))
      have htd := takeName_app hr hx w4
      have hd : dropWs (x :: w4) = [] := (dropWs_nil_iff _).2 hw4
      have s2 : step true ⟨.preCompleteTagGi, w3 ++ ((c :: r) ++ (x :: w4)), true, gi, [], stk⟩ =
          .cont ⟨.completeTag, x :: w4, true, c :: r, [], stk⟩ [] := by
        simp [step, stepTagGi, dropWs_space_cons hw3 (isWs_nameStart hc), hc, htd.1, htd.2]
      refine ⟨⟨.completeTag, [], true, c :: r, [], stk⟩, .head s1 (.head s2 (.one ?_)), ?_⟩
      · simp [step, stepCompleteTag, hd, wait]
      · simp [step, stepCompleteTag, dropWs, wait]

/-- Text content with nothing after it. -/
theorem cdata_run_more {s raw : Str} (hs : Spells TextLit s raw) {r : Str}
    (hr : r = [] ∨ PartialRef r) : cdata isDataChar '<' .txt (raw ++ r) = .more := by
  rw [cdata_text_pre hs]
  rcases hr with rfl | hr
  · simp [cdata]
  · rw [cdata_partialRef hr (by decide) (by decide)]; simp

/-! ### attribute mappings -/

theorem get_map (ns : List Str) (f : Str → Str) (k : Str) :
    Attrs.get (ns.map fun k => (k, f k)) k = if k ∈ ns then some (f k) else none := by
  induction ns with
  | nil => rfl
  | cons n ns ih =>
    simp only [List.map_cons, Attrs.get, ih]
    by_cases h : n = k
    · subst h; simp
    · have : ¬ k = n := fun h' => h h'.symm
      simp [h, this]

theorem mem_firstNames (kvs : List (Str × Str)) (k : Str) :
    k ∈ firstNames kvs ↔ k ∈ kvs.map (·.1) := by
  induction kvs with
  | nil => simp [firstNames]
  | cons p kvs ih =>
    obtain ⟨k', v'⟩ := p
    simp only [firstNames, List.mem_cons, List.mem_filter, ih, List.map_cons]
    by_cases h : k = k' <;> simp [h]

theorem dictOf_get (kvs : List (Str × Str)) (k : Str) :
    (dictOf kvs).get k = (kvs.reverse.find? (fun p => p.1 == k)).map (·.2) := by
  rw [dictOf, get_map]
  by_cases h : k ∈ firstNames kvs
  · rw [if_pos h]
    simp only [lastValue]
    rw [mem_firstNames, List.mem_map] at h
    obtain ⟨p, hp, rfl⟩ := h
    cases hf : kvs.reverse.find? (fun p' => p'.1 == p.1) with
    | none =>
      rw [List.find?_eq_none] at hf
      exact absurd (by simp) (hf p (by simpa using hp))
    | some x => simp
  · rw [if_neg h]
    rw [mem_firstNames] at h
    have : kvs.reverse.find? (fun p => p.1 == k) = none := by
      rw [List.find?_eq_none]
      intro p hp hpk
      apply h
      rw [List.mem_map]
      exact ⟨p, by simpa using hp, by simpa using hpk⟩
    rw [this]; rfl

end Amara
