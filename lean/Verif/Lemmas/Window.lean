import Verif.Model.Window
import Verif.Lemmas.Exec
/-
The parser with its window and indices (`Model/Window`) and the parser on the unread suffix (`Model/Parser`) do the same, and
how often the window is read.
-/
namespace Amara.W

/-! ### scanning -/

theorem scan_le {p : Char → Bool} {w : Str} {i : Nat} (h : i ≤ w.length) : scan p w i ≤ w.length := by
  fun_induction scan p w i with
  | case1 i h hp ih => exact ih (by omega)
  | case2 => exact h
  | case3 => exact h

theorem drop_scan (p : Char → Bool) (w : Str) (i : Nat) : w.drop (scan p w i) = (w.drop i).dropWhile p := by
  fun_induction scan p w i with
  | case1 i h hp ih => rw [ih, List.drop_eq_getElem_cons h, List.dropWhile_cons, if_pos hp]
  | case2 i h hp => rw [List.drop_eq_getElem_cons h, List.dropWhile_cons, if_neg hp]
  | case3 i h => rw [List.drop_eq_nil_of_le (by omega)]; rfl

theorem slice_self (w : Str) (i : Nat) : slice w i i = [] := by simp [slice]

theorem slice_step {w : Str} {i j : Nat} (h : i < w.length) (hj : i < j) : slice w i j = w[i] :: slice w (i + 1) j := by
  obtain ⟨k, rfl⟩ : ∃ k, j = i + 1 + k := ⟨j - (i + 1), by omega⟩
  simp only [slice]
  rw [List.drop_eq_getElem_cons h, show i + 1 + k - i = k + 1 by omega, show i + 1 + k - (i + 1) = k by omega, List.take_succ_cons]

theorem slice_scan (p : Char → Bool) (w : Str) (i : Nat) : slice w i (scan p w i) = (w.drop i).takeWhile p := by
  fun_induction scan p w i with
  | case1 i h hp ih =>
    have := scan_ge p w (i + 1)
    rw [slice_step h (by omega), ih, List.drop_eq_getElem_cons h, List.takeWhile_cons, if_pos hp]
  | case2 i h hp => rw [slice_self, List.drop_eq_getElem_cons h, List.takeWhile_cons, if_neg hp]
  | case3 i h => rw [slice_self, List.drop_eq_nil_of_le (by omega)]; rfl

theorem scanReads_eq (p : Char → Bool) (w : Str) (i : Nat) : scanReads p w i = scan p w i - i + 1 := by
  fun_induction scan p w i with
  | case1 i h hp ih =>
    have := scan_ge p w (i + 1)
    rw [scanReads, dif_pos h, if_pos hp, ih]; omega
  | case2 i h hp => rw [scanReads, dif_pos h, if_neg hp]; omega
  | case3 i h => rw [scanReads, dif_neg h]; omega

theorem dropWs_eq (s : Str) : dropWs s = s.dropWhile isWs := by
  induction s with
  | nil => rfl
  | cons c r ih => rw [dropWs, List.dropWhile_cons]; split <;> simp_all

theorem dropName_eq (s : Str) : dropName s = s.dropWhile isNameChar := by
  induction s with
  | nil => rfl
  | cons c r ih => rw [dropName, List.dropWhile_cons]; split <;> simp_all

theorem takeName_eq (s : Str) : takeName s = s.takeWhile isNameChar := by
  induction s with
  | nil => rfl
  | cons c r ih => rw [takeName, List.takeWhile_cons]; split <;> simp_all

theorem drop_scanWs (w : Str) (i : Nat) : w.drop (scan isWs w i) = dropWs (w.drop i) := by rw [drop_scan, dropWs_eq]

theorem drop_scanName (w : Str) (i : Nat) : w.drop (scan isNameChar w i) = dropName (w.drop i) := by rw [drop_scan, dropName_eq]

theorem slice_scanName (w : Str) (i : Nat) : slice w i (scan isNameChar w i) = takeName (w.drop i) := by
  rw [slice_scan, takeName_eq]

/-- Reading an index: the head of the suffix. -/
theorem drop_of_get {w : Str} {i : Nat} {c : Char} (h : w[i]? = some c) : w.drop i = c :: w.drop (i + 1) := by
  have hi : i < w.length := by
    rw [List.getElem?_eq_some_iff] at h; exact h.1
  rw [List.drop_eq_getElem_cons hi]
  rw [List.getElem?_eq_getElem hi] at h
  cases h; rfl

theorem lt_of_get {w : Str} {i : Nat} {c : Char} (h : w[i]? = some c) : i < w.length := by
  rw [List.getElem?_eq_some_iff] at h; exact h.1

theorem drop_of_none {w : Str} {i : Nat} (h : w[i]? = none) : w.drop i = [] := by
  rw [List.getElem?_eq_none_iff] at h; exact List.drop_eq_nil_of_le h

theorem scan_stop {p : Char → Bool} {w : Str} {i : Nat} (h : scan p w i < w.length) : p w[scan p w i] = false := by
  have h1 := drop_scan p w i
  rw [List.drop_eq_getElem_cons h] at h1
  have := List.head?_dropWhile_not p (w.drop i)
  rw [← h1] at this
  simpa [List.getElem?_eq_getElem h] using this

/-! ### `handle_cdata` -/

/-- Text collected before. -/
def pushAll (s : Str) : CRes → CRes
  | .found t r => .found (s ++ t) r
  | .more => .more
  | .fail e => .fail e

theorem pushAll_nil (x : CRes) : pushAll [] x = x := by cases x <;> rfl

theorem pushAll_push (s : Str) (c : Char) (x : CRes) : pushAll s (x.push c) = pushAll (s ++ [c]) x := by
  cases x <;> simp [pushAll, CRes.push]

theorem pushAll_pushAll (s t : Str) (x : CRes) : pushAll s (pushAll t x) = pushAll (s ++ t) x := by
  cases x <;> simp [pushAll]

theorem cdata_run {pat : Char → Bool} {stop : Char} (l : Str) :
    cdata pat stop .txt l = pushAll (l.takeWhile pat) (cdata pat stop .txt (l.dropWhile pat)) := by
  induction l with
  | nil => simp [cdata, pushAll]
  | cons c r ih =>
    by_cases hc : pat c
    · rw [cdata, if_pos hc, List.takeWhile_cons, if_pos hc, List.dropWhile_cons, if_pos hc, ih]
      cases cdata pat stop .txt (r.dropWhile pat) <;> simp [pushAll, CRes.push]
    · rw [List.takeWhile_cons, if_neg hc, List.dropWhile_cons, if_neg hc, pushAll_nil]

theorem cdata_hex_run {pat : Char → Bool} {stop : Char} (l acc : Str) :
    cdata pat stop (.hex acc) l = cdata pat stop (.hex ((l.takeWhile isHexDigit).reverse ++ acc)) (l.dropWhile isHexDigit) := by
  induction l generalizing acc with
  | nil => simp
  | cons c r ih =>
    by_cases hc : isHexDigit c
    · rw [cdata, if_pos hc, List.takeWhile_cons, if_pos hc, List.dropWhile_cons, if_pos hc, ih]; simp
    · rw [List.takeWhile_cons, if_neg hc, List.dropWhile_cons, if_neg hc]; simp

theorem cdata_named_run {pat : Char → Bool} {stop : Char} (l acc : Str) :
    cdata pat stop (.named acc) l =
      cdata pat stop (.named ((l.takeWhile isNamedRefChar).reverse ++ acc)) (l.dropWhile isNamedRefChar) := by
  induction l generalizing acc with
  | nil => simp
  | cons c r ih =>
    by_cases hc : isNamedRefChar c
    · rw [cdata, if_pos hc, List.takeWhile_cons, if_pos hc, List.dropWhile_cons, if_pos hc, ih]; simp
    · rw [List.takeWhile_cons, if_neg hc, List.dropWhile_cons, if_neg hc]; simp

theorem amp_eq_named {pat : Char → Bool} {stop : Char} {c : Char} {r : Str} (hc : c ≠ '#') (hn : charName [] = none) :
    cdata pat stop .amp (c :: r) = cdata pat stop (.named []) (c :: r) := by
  rw [cdata, if_neg hc, cdata]
  by_cases h1 : isNamedRefChar c
  · rw [if_pos h1, if_pos h1]
  · rw [if_neg h1, if_neg h1]
    by_cases h2 : c = ';'
    · rw [if_pos h2, if_pos h2]; simp [hn]
    · rw [if_neg h2, if_neg h2]

theorem charName_nil : charName [] = none := by decide +kernel

/-- What a reference, read by index, means for the text that follows. -/
def refMeans (pat : Char → Bool) (stop : Char) (w : Str) : Ref → CRes
  | .char c i => (cdata pat stop .txt (w.drop (i + 1))).push c
  | .more _ => .more
  | .fail e => .fail e

theorem hexRefAt_means (pat : Char → Bool) (stop : Char) (w : Str) (i : Nat) :
    cdata pat stop (.hex []) (w.drop i) = refMeans pat stop w (hexRefAt w i).1 := by
  rw [cdata_hex_run, ← slice_scan, ← drop_scan]
  simp only [hexRefAt]
  cases hg : w[scan isHexDigit w i]? with
  | none => rw [drop_of_none hg]; simp [cdata, refMeans]
  | some c =>
    have hlt := lt_of_get hg
    have hs := scan_stop hlt
    have hc : w[scan isHexDigit w i] = c := by
      rw [List.getElem?_eq_getElem hlt] at hg; exact Option.some.inj hg
    rw [hc] at hs
    rw [drop_of_get hg, cdata, if_neg (by simp [hs])]
    by_cases h2 : c = ';'
    · simp only [if_pos h2, List.append_nil, List.reverse_reverse]
      cases hexRef (slice w i (scan isHexDigit w i)) <;> simp [refMeans]
    · simp [if_neg h2, refMeans]

theorem namedRefAt_means (pat : Char → Bool) (stop : Char) (w : Str) (i : Nat) :
    cdata pat stop (.named []) (w.drop i) = refMeans pat stop w (namedRefAt w i).1 := by
  rw [cdata_named_run, ← slice_scan, ← drop_scan]
  simp only [namedRefAt]
  cases hg : w[scan isNamedRefChar w i]? with
  | none => rw [drop_of_none hg]; simp [cdata, refMeans]
  | some c =>
    have hlt := lt_of_get hg
    have hs := scan_stop hlt
    have hc : w[scan isNamedRefChar w i] = c := by
      rw [List.getElem?_eq_getElem hlt] at hg; exact Option.some.inj hg
    rw [hc] at hs
    rw [drop_of_get hg, cdata, if_neg (by simp [hs])]
    by_cases h2 : c = ';'
    · simp only [if_pos h2, List.append_nil, List.reverse_reverse]
      cases charName (slice w i (scan isNamedRefChar w i)) <;> simp [refMeans]
    · simp [if_neg h2, refMeans]

theorem isNamedRefChar_hash : isNamedRefChar '#' = false := by decide +kernel

theorem refAt_means (pat : Char → Bool) (stop : Char) (w : Str) (i : Nat) :
    cdata pat stop .amp (w.drop i) = refMeans pat stop w (refAt w i).1 := by
  simp only [refAt]
  cases hg : w[i]? with
  | none => rw [drop_of_none hg]; simp [cdata, refMeans]
  | some c =>
    by_cases hc : c = '#'
    · subst hc
      simp only [if_pos]
      rw [drop_of_get hg, cdata, if_pos rfl]
      cases hg2 : w[i + 1]? with
      | none => rw [drop_of_none hg2]; simp [cdata, refMeans]
      | some d =>
        by_cases hd : d = 'x'
        · subst hd
          simp only [if_pos]
          rw [drop_of_get hg2, cdata, if_pos rfl]
          exact hexRefAt_means pat stop w (i + 2)
        · simp only [if_neg hd]
          rw [drop_of_get hg2, cdata, if_neg hd, ← namedRefAt_means, drop_of_get hg, cdata]
          simp [isNamedRefChar_hash]
    · simp only [if_neg hc]
      rw [drop_of_get hg, amp_eq_named hc charName_nil, ← drop_of_get hg]
      exact namedRefAt_means pat stop w i

/-- What `handle_cdata` gives, in terms of what is left. -/
def retMeans (w : Str) : Ret → CRes
  | .found s i => .found s (w.drop (i + 1))
  | .none _ => .more
  | .fail e => .fail e

theorem cdataLoop_means {pat : Char → Bool} {stop : Char} {w : Str} (i : Nat) (acc : Str) :
    retMeans w (cdataLoop pat stop w i acc).1 = pushAll acc (cdata pat stop .txt (w.drop i)) := by
  fun_induction cdataLoop pat stop w i acc with
  | case1 i acc c1 reads hlt acc' hstop =>
    rw [cdata_run, ← slice_scan, ← drop_scan, List.drop_eq_getElem_cons hlt, cdata, if_neg (Bool.eq_false_iff.mp (scan_stop hlt)), if_pos hstop]
    simp [retMeans, pushAll, acc', c1]
  | case2 i acc c1 reads hlt acc' hstop hamp c c2 hr r ih =>
    rw [cdata_run, ← slice_scan, ← drop_scan, List.drop_eq_getElem_cons hlt, cdata, if_neg (Bool.eq_false_iff.mp (scan_stop hlt)), if_neg hstop,
      if_pos hamp, refAt_means, hr, refMeans, pushAll_pushAll, pushAll_push]
    exact ih
  | case3 i acc c1 reads hlt hstop hamp c2 hr =>
    rw [cdata_run, ← slice_scan, ← drop_scan, List.drop_eq_getElem_cons hlt, cdata, if_neg (Bool.eq_false_iff.mp (scan_stop hlt)), if_neg hstop,
      if_pos hamp, refAt_means, hr]
    rfl
  | case4 i acc c1 reads hlt hstop hamp e hr =>
    rw [cdata_run, ← slice_scan, ← drop_scan, List.drop_eq_getElem_cons hlt, cdata, if_neg (Bool.eq_false_iff.mp (scan_stop hlt)), if_neg hstop,
      if_pos hamp, refAt_means, hr]
    rfl
  | case5 i acc c1 reads hlt acc' hstop hamp r ih =>
    rw [cdata_run, ← slice_scan, ← drop_scan, List.drop_eq_getElem_cons hlt, cdata, if_neg (Bool.eq_false_iff.mp (scan_stop hlt)), if_neg hstop,
      if_neg hamp, pushAll_pushAll]
    exact ih
  | case6 i acc c1 reads hlt =>
    rw [cdata_run, ← slice_scan, ← drop_scan, List.drop_eq_nil_of_le (by omega)]
    simp [retMeans, pushAll, cdata]

theorem handleCdata_means (pat : Char → Bool) (stop : Char) (w : Str) (i : Nat) :
    retMeans w (handleCdata i w pat stop).1 = cdata pat stop .txt (w.drop i) := by
  rw [handleCdata, cdataLoop_means, pushAll_nil]

/-- The stop character is where the text ends. -/
theorem cdataLoop_found {pat : Char → Bool} {stop : Char} {w : Str} {i : Nat} {acc t : Str} {j : Nat}
    (h : (cdataLoop pat stop w i acc).1 = .found t j) : w[j]? = some stop ∧ i ≤ j := by
  fun_induction cdataLoop pat stop w i acc with
  | case1 i acc c1 reads hlt acc' hstop =>
    simp only [Ret.found.injEq] at h
    rw [← h.2]
    refine ⟨?_, scan_ge _ _ _⟩
    rw [List.getElem?_eq_getElem hlt, hstop]
  | case2 i acc c1 reads hlt acc' hstop hamp c c2 hr r ih =>
    have := scan_ge pat w i
    have := refAt_ge hr
    have := ih h
    exact ⟨this.1, by omega⟩
  | case3 => simp at h
  | case4 => simp at h
  | case5 i acc c1 reads hlt acc' hstop hamp r ih =>
    have := scan_ge pat w i
    have := ih h
    exact ⟨this.1, by omega⟩
  | case6 => simp at h

/-! ### the coroutine -/

/-- The state of the suffix model: the window without what has been read. -/
def WState.unread (s : WState) : PState := ⟨s.st, s.window.drop s.pos, s.pendingEnd, s.gi, s.attribs, s.stack⟩

/-- What holds of the variables whenever the inner loop is entered. -/
def WState.Ok (s : WState) : Prop := s.wlen = s.window.length ∧ s.pos ≤ s.wlen

def WStep.unread : WStep → StepRes
  | .cont s evs => .cont s.unread evs
  | .pause s evs => .pause s.unread evs
  | .fail e => .fail e

/-- The state a step leaves behind has the same window and has not gone back in it. -/
def WStep.Keeps (s : WState) : WStep → Prop
  | .cont s' _ => s'.window = s.window ∧ s'.wlen = s.wlen ∧ s.pos ≤ s'.pos ∧ s'.pos ≤ s.wlen
  | .pause s' _ => s'.window = s.window ∧ s'.wlen = s.wlen ∧ s.pos ≤ s'.pos ∧ s'.pos ≤ s.wlen
  | .fail _ => True

theorem wwait_unread (done : Bool) (s : WState) : (wwait done s).unread = wait done s.unread := by
  cases done <;> rfl

theorem wwait_keeps {done : Bool} {s s' : WState} (h1 : s'.window = s.window) (h2 : s'.wlen = s.wlen) (h3 : s.pos ≤ s'.pos)
    (h4 : s'.pos ≤ s.wlen) : (wwait done s').Keeps s := by
  cases done <;> exact ⟨h1, h2, h3, h4⟩

theorem drop_eq_nil_iff_eq {w : Str} {i : Nat} (h : i ≤ w.length) : w.drop i = [] ↔ i = w.length := by
  rw [List.drop_eq_nil_iff]; omega

theorem wPreElement_unread (done : Bool) (s : WState) :
    (wPreElement done s).1.unread = stepPreElement done s.unread := by
  simp only [wPreElement, stepPreElement, WState.unread]
  rw [← drop_scanWs]
  cases hg : s.window[scan isWs s.window s.pos]? with
  | none => rw [drop_of_none hg]; simp only [wwait_unread]; simp [WState.unread, drop_of_none hg]
  | some c =>
    rw [drop_of_get hg]
    by_cases hc : c = '<' <;> simp [hc, WStep.unread, WState.unread]
    rw [drop_of_get hg]

theorem wTagGi_unread (done : Bool) (s : WState) : (wTagGi done s).1.unread = stepTagGi done s.unread := by
  obtain ⟨st, w, pos, wlen, pe, gi, ats, stk⟩ := s
  show (wTagGi done ⟨st, w, pos, wlen, pe, gi, ats, stk⟩).1.unread = stepTagGi done ⟨st, w.drop pos, pe, gi, ats, stk⟩
  simp only [wTagGi, stepTagGi]
  rw [← drop_scanWs]
  cases hg : w[scan isWs w pos]? with
  | none => rw [drop_of_none hg]; simp only [wwait_unread]; simp only [WState.unread, drop_of_none hg]
  | some c =>
    rw [drop_of_get hg]
    simp only
    by_cases hc : st = .preTagGi ∧ c = '/'
    · rw [if_pos hc, if_pos hc]; rfl
    · rw [if_neg hc, if_neg hc]
      by_cases hn : isNameStart c = true
      · rw [if_pos hn, if_pos hn]
        rw [← drop_scanName, ← slice_scanName]
        cases hg2 : w[scan isNameChar w (scan isWs w pos + 1)]? with
        | none =>
          rw [if_pos (drop_of_none hg2)]; simp only [wwait_unread]
          simp only [WState.unread, drop_of_get hg]
        | some d =>
          have hne : ¬ (w.drop (scan isNameChar w (scan isWs w pos + 1)) = []) := by rw [drop_of_get hg2]; simp
          rw [if_neg hne]
          have hlt := lt_of_get hg
          have hge := scan_ge isNameChar w (scan isWs w pos + 1)
          have hw : w[scan isWs w pos] = c := by
            rw [List.getElem?_eq_getElem hlt] at hg; exact Option.some.inj hg
          rw [slice_step hlt (by omega), hw]
          rfl
      · rw [if_neg hn, if_neg hn]
        simp only [WStep.unread, WState.unread, drop_of_get hg]

theorem wCompleteTag_unread (done : Bool) {s : WState} (ok : s.Ok) :
    (wCompleteTag done s).1.unread = stepCompleteTag done s.unread := by
  obtain ⟨st, w, pos, wlen, pe, gi, ats, stk⟩ := s
  obtain ⟨ok1, ok2⟩ := ok
  simp only at ok1 ok2
  show (wCompleteTag done ⟨st, w, pos, wlen, pe, gi, ats, stk⟩).1.unread = stepCompleteTag done ⟨st, w.drop pos, pe, gi, ats, stk⟩
  simp only [wCompleteTag, stepCompleteTag]
  rw [← drop_scanWs]
  cases hg : w[scan isWs w pos]? with
  | none => rw [drop_of_none hg]; simp only [wwait_unread]; simp only [WState.unread, drop_of_none hg]
  | some c =>
    have hlt := lt_of_get hg
    have hd := drop_of_get hg
    rw [hd]
    simp only
    have hend : (w.drop (scan isWs w pos + 1) = []) ↔ scan isWs w pos + 1 = wlen := by
      rw [ok1]; exact drop_eq_nil_iff_eq (by omega)
    by_cases hc : pe = false ∧ isNameStart c = true
    · rw [if_pos hc, if_pos hc]; simp only [WStep.unread, WState.unread, hd]
    · rw [if_neg hc, if_neg hc]
      by_cases hgt : c = '>'
      · rw [if_pos hgt, if_pos hgt]
        cases pe with
        | false =>
          rw [if_pos rfl, if_pos rfl]
          by_cases he : scan isWs w pos + 1 = wlen
          · rw [if_pos he, if_pos (hend.mpr he)]; rfl
          · rw [if_neg he, if_neg (fun hh => he (hend.mp hh))]; rfl
        | true =>
          have hf : ¬ (true = false) := by simp
          rw [if_neg hf, if_neg hf, if_neg hf]
          cases stk with
          | nil => rfl
          | cons o stk =>
            simp only
            by_cases ho : o ≠ gi
            · rw [if_pos ho, if_pos ho]; rfl
            · rw [if_neg ho, if_neg ho]
              by_cases he : scan isWs w pos + 1 = wlen
              · rw [if_pos he, if_pos (hend.mpr he)]; rfl
              · rw [if_neg he, if_neg (fun hh => he (hend.mp hh))]; rfl
      · rw [if_neg hgt, if_neg hgt]; rfl

theorem wAttribute_unread (done : Bool) {s : WState} (ok : s.Ok) :
    (wAttribute done s).1.unread = stepAttribute done s.unread := by
  obtain ⟨st, w, pos, wlen, pe, gi, ats, stk⟩ := s
  obtain ⟨ok1, ok2⟩ := ok
  simp only at ok1 ok2
  show (wAttribute done ⟨st, w, pos, wlen, pe, gi, ats, stk⟩).1.unread = stepAttribute done ⟨st, w.drop pos, pe, gi, ats, stk⟩
  simp only [wAttribute, stepAttribute]
  cases hg0 : w[pos]? with
  | none =>
    have hnil := drop_of_none hg0
    have hge := scan_ge isNameChar w (pos + 1)
    rw [List.getElem?_eq_none_iff] at hg0
    have : w[scan isNameChar w (pos + 1)]? = none := by rw [List.getElem?_eq_none_iff]; omega
    rw [this, hnil]
    simp only [wwait_unread]
    simp only [WState.unread, hnil]
  | some c =>
    have hlt := lt_of_get hg0
    have hd0 := drop_of_get hg0
    have hw : w[pos] = c := by
      rw [List.getElem?_eq_getElem hlt] at hg0; exact Option.some.inj hg0
    rw [hd0]
    simp only
    rw [← drop_scanName, ← slice_scanName]
    cases hg : w[scan isNameChar w (pos + 1)]? with
    | none =>
      rw [if_pos (drop_of_none hg)]; simp only [wwait_unread]; simp only [WState.unread, hd0]
    | some d0 =>
      have hge := scan_ge isNameChar w (pos + 1)
      have hne : ¬ (w.drop (scan isNameChar w (pos + 1)) = []) := by rw [drop_of_get hg]; simp
      rw [if_neg hne, ← drop_scanWs]
      simp only
      generalize hp1 : scan isNameChar w (pos + 1) = p1 at *
      generalize hp2 : scan isWs w p1 = p2 at *
      cases hg1 : w[p2]? with
      | none =>
        rw [drop_of_none hg1]; simp only [wwait_unread]; simp only [WState.unread, hd0]
      | some d =>
        have hlt1 := lt_of_get hg1
        rw [drop_of_get hg1]
        simp only
        by_cases hd : d = '='
        · rw [if_pos hd, if_pos hd]
          have hend : (w.drop (p2 + 1) = []) ↔ p2 + 1 = wlen := by
            rw [ok1]; exact drop_eq_nil_iff_eq (by omega)
          cases hg2 : w[p2 + 1]? with
          | none =>
            have hn := drop_of_none hg2
            rw [hn]
            cases done with
            | false => rw [if_pos ⟨rfl, hend.mp hn⟩]; simp [WStep.unread, WState.unread, hd0]
            | true => rw [if_neg (by simp)]; simp [WStep.unread]
          | some q =>
            have hd2 := drop_of_get hg2
            have hne2 : ¬ (done = false ∧ p2 + 1 = wlen) := by
              rintro ⟨_, h2⟩; have := hend.mpr h2; rw [hd2] at this; simp at this
            rw [if_neg hne2, hd2]
            simp only
            by_cases hq : q = '"' ∨ q = '\''
            · rw [if_pos hq, if_pos hq, ← handleCdata_means]
              cases hr : (handleCdata (p2 + 1 + 1) w (attrPat q) q).1 with
              | found v np =>
                simp only [retMeans, WStep.unread, WState.unread]
                rw [slice_step hlt (by omega), hw]
              | none np => simp only [retMeans, wwait_unread]; simp only [WState.unread, hd2]
              | fail e => rfl
            · rw [if_neg hq, if_neg hq]; simp only [WStep.unread, WState.unread, hd2]
        · rw [if_neg hd, if_neg hd]; rfl

theorem wInElement_unread (done : Bool) (s : WState) : (wInElement done s).1.unread = stepInElement done s.unread := by
  simp only [wInElement, stepInElement, WState.unread]
  rw [← handleCdata_means]
  cases hr : (handleCdata s.pos s.window isDataChar '<').1 with
  | found v np =>
    have := (cdataLoop_found hr).1
    simp [retMeans, WStep.unread, WState.unread, this]
  | none np => simp only [retMeans, wwait_unread]; simp [WState.unread]
  | fail e => rfl

theorem wCompleteDoc_unread (done : Bool) {s : WState} (ok : s.Ok) :
    (wCompleteDoc done s).1.unread = stepCompleteDoc done s.unread := by
  simp only [wCompleteDoc, stepCompleteDoc, WState.unread]
  have hend : (s.window.drop s.pos = []) ↔ s.pos = s.wlen := by
    have := ok.2; rw [ok.1] at this ⊢; exact drop_eq_nil_iff_eq this
  by_cases he : s.pos = s.wlen
  · rw [if_pos he, hend.mpr he]; simp [WStep.unread, WState.unread, hend.mpr he]
  · rw [if_neg he, ← drop_scanWs]
    cases hd : s.window.drop s.pos with
    | nil => exact absurd (hend.mp hd) he
    | cons c r =>
      simp only
      cases hg : s.window[scan isWs s.window s.pos]? with
      | none => rw [drop_of_none hg]; simp only [wwait_unread]; simp [WState.unread, drop_of_none hg]
      | some d =>
        have hlt := lt_of_get hg
        rw [drop_of_get hg]
        simp only
        rw [if_neg (by rw [ok.1]; omega)]; rfl

/-- One step by index is one step on the unread suffix. -/
theorem wstep_unread (done : Bool) {s : WState} (ok : s.Ok) : (wstep done s).1.unread = step done s.unread := by
  have hst : s.unread.st = s.st := rfl
  unfold wstep step
  rw [hst]
  cases h : s.st with
  | preElement => exact wPreElement_unread done s
  | preTagGi => exact wTagGi_unread done s
  | preCompleteTagGi => exact wTagGi_unread done s
  | completeTag => exact wCompleteTag_unread done ok
  | «attribute» => exact wAttribute_unread done ok
  | inElement => exact wInElement_unread done s
  | completeDoc => exact wCompleteDoc_unread done ok

/-! ### the window stays, and the reads are paid for by the progress made -/

theorem hexRefAt_reads {w : Str} {i : Nat} (h : i ≤ w.length) : (hexRefAt w i).2 ≤ w.length - i + 1 ∧
    ∀ c j, (hexRefAt w i).1 = .char c j → j < w.length ∧ (hexRefAt w i).2 = j - i + 2 := by
  have h1 := scan_ge isHexDigit w i
  have h2 := scan_le (p := isHexDigit) h
  have h3 := scanReads_eq isHexDigit w i
  simp only [hexRefAt]
  cases hg : w[scan isHexDigit w i]? with
  | none => exact ⟨by simp only; omega, by intro c j hh; simp at hh⟩
  | some c =>
    have hlt := lt_of_get hg
    simp only
    by_cases hc : c = ';'
    · rw [if_pos hc]
      cases hexRef (slice w i (scan isHexDigit w i)) with
      | ok d => refine ⟨by simp only; omega, ?_⟩; intro c j hh; simp only [Ref.char.injEq] at hh ⊢; omega
      | error e => exact ⟨by simp only; omega, by intro c j hh; simp at hh⟩
    · rw [if_neg hc]
      exact ⟨by simp only; omega, by intro c j hh; simp at hh⟩

theorem namedRefAt_reads {w : Str} {i : Nat} (h : i ≤ w.length) : (namedRefAt w i).2 ≤ w.length - i + 1 ∧
    ∀ c j, (namedRefAt w i).1 = .char c j → j < w.length ∧ (namedRefAt w i).2 = j - i + 2 := by
  have h1 := scan_ge isNamedRefChar w i
  have h2 := scan_le (p := isNamedRefChar) h
  have h3 := scanReads_eq isNamedRefChar w i
  simp only [namedRefAt]
  cases hg : w[scan isNamedRefChar w i]? with
  | none => exact ⟨by simp only; omega, by intro c j hh; simp at hh⟩
  | some c =>
    have hlt := lt_of_get hg
    simp only
    by_cases hc : c = ';'
    · rw [if_pos hc]
      cases charName (slice w i (scan isNamedRefChar w i)) with
      | some d => refine ⟨by simp only; omega, ?_⟩; intro c j hh; simp only [Ref.char.injEq] at hh ⊢; omega
      | none => exact ⟨by simp only; omega, by intro c j hh; simp at hh⟩
    · rw [if_neg hc]
      exact ⟨by simp only; omega, by intro c j hh; simp at hh⟩

theorem refAt_reads {w : Str} {i : Nat} (h : i ≤ w.length) : (refAt w i).2 ≤ w.length - i + 3 ∧
    ∀ c j, (refAt w i).1 = .char c j → j < w.length ∧ (refAt w i).2 ≤ j - i + 4 := by
  simp only [refAt]
  cases hg : w[i]? with
  | none => exact ⟨by simp only; omega, by intro c j hh; simp at hh⟩
  | some c =>
    have hn := namedRefAt_reads h
    simp only
    by_cases hc : c = '#'
    · rw [if_pos hc]
      cases hg2 : w[i + 1]? with
      | none => exact ⟨by simp only; omega, by intro c j hh; simp at hh⟩
      | some d =>
        have hlt := lt_of_get hg2
        simp only
        by_cases hd : d = 'x'
        · rw [if_pos hd]
          have hx := hexRefAt_reads (w := w) (i := i + 2) (by omega)
          refine ⟨by simp only; omega, ?_⟩
          intro c j hh
          have := hx.2 c j hh
          refine ⟨this.1, ?_⟩
          simp only; omega
        · rw [if_neg hd]
          refine ⟨by simp only; omega, ?_⟩
          intro c j hh
          have := hn.2 c j hh
          exact ⟨this.1, by simp only; omega⟩
    · rw [if_neg hc]
      refine ⟨by simp only; omega, ?_⟩
      intro c j hh
      have := hn.2 c j hh
      exact ⟨this.1, by simp only; omega⟩

theorem cdataLoop_reads {pat : Char → Bool} {stop : Char} {w : Str} (i : Nat) (acc : Str) (h : i ≤ w.length) :
    (cdataLoop pat stop w i acc).2 ≤ 4 * (w.length - i) + 3 ∧
    ∀ t j, (cdataLoop pat stop w i acc).1 = .found t j → (cdataLoop pat stop w i acc).2 ≤ 4 * (j - i) + 2 := by
  fun_induction cdataLoop pat stop w i acc with
  | case1 i acc c1 reads hlt acc' hstop =>
    have h1 := scan_ge pat w i
    have h3 := scanReads_eq pat w i
    refine ⟨by simp only [reads]; omega, ?_⟩
    intro t j hh
    simp only [Ret.found.injEq] at hh
    simp only [reads]
    omega
  | case2 i acc c1 reads hlt acc' hstop hamp c c2 hr r ih =>
    have h1 := scan_ge pat w i
    have h3 := scanReads_eq pat w i
    have h4 := refAt_ge hr
    have h5 := (refAt_reads (w := w) (i := c1 + 1) (by omega)).2 c c2 hr
    have ih := ih (by omega)
    refine ⟨by simp only [reads, r]; omega, ?_⟩
    intro t j hh
    have h6 := ih.2 t j hh
    have h7 := (cdataLoop_found hh).2
    simp only [reads, r]
    omega
  | case3 i acc c1 reads hlt hstop hamp c2 hr =>
    have h1 := scan_ge pat w i
    have h3 := scanReads_eq pat w i
    have h5 := (refAt_reads (w := w) (i := c1 + 1) (by omega)).1
    refine ⟨by simp only [reads]; omega, ?_⟩
    intro t j hh; simp at hh
  | case4 i acc c1 reads hlt hstop hamp e hr =>
    have h1 := scan_ge pat w i
    have h3 := scanReads_eq pat w i
    have h5 := (refAt_reads (w := w) (i := c1 + 1) (by omega)).1
    refine ⟨by simp only [reads]; omega, ?_⟩
    intro t j hh; simp at hh
  | case5 i acc c1 reads hlt acc' hstop hamp r ih =>
    have h1 := scan_ge pat w i
    have h3 := scanReads_eq pat w i
    have ih := ih (by omega)
    refine ⟨by simp only [reads, r]; omega, ?_⟩
    intro t j hh
    have h6 := ih.2 t j hh
    have h7 := (cdataLoop_found hh).2
    simp only [reads, r]
    omega
  | case6 i acc c1 reads hlt =>
    have h1 := scan_ge pat w i
    have h2 := scan_le (p := pat) h
    have h3 := scanReads_eq pat w i
    refine ⟨by simp only [reads]; omega, ?_⟩
    intro t j hh; simp at hh

/-- The reads of a step: at most six, and four for each character it gets past, unless it is a step of the last call, and never more than four for each
unread character and six. -/
def Paid (done : Bool) (s : WState) (r : WStep × Nat) : Prop :=
  r.2 ≤ 4 * (s.wlen - s.pos) + 6 ∧
    ∀ s' evs, r.1 = .cont s' evs → r.2 ≤ 4 * (s'.pos - s.pos) + 6 ∨ done = true

theorem paid_wwait {done : Bool} {s s' : WState} {k : Nat} (h : k ≤ 4 * (s.wlen - s.pos) + 6) : Paid done s (wwait done s', k) := by
  refine ⟨h, ?_⟩
  intro t evs hh
  cases done with
  | false => simp [wwait] at hh
  | true => exact .inr rfl

theorem paid_fail {done : Bool} {s : WState} {e : Err} {k : Nat} (h : k ≤ 4 * (s.wlen - s.pos) + 6) : Paid done s (.fail e, k) :=
  ⟨h, by intro t evs hh; simp at hh⟩

theorem paid_pause {done : Bool} {s s' : WState} {evs : List Event} {k : Nat} (h : k ≤ 4 * (s.wlen - s.pos) + 6) : Paid done s (.pause s' evs, k) :=
  ⟨h, by intro t evs hh; simp at hh⟩

theorem paid_cont {done : Bool} {s s' : WState} {evs : List Event} {k : Nat} (hle : s'.pos ≤ s.wlen) (h : k ≤ 4 * (s'.pos - s.pos) + 6) :
    Paid done s (.cont s' evs, k) := by
  refine ⟨by simp only; omega, ?_⟩
  intro t evs hh
  simp only [WStep.cont.injEq] at hh
  rw [← hh.1]
  exact .inl h

theorem wstep_keeps_paid (done : Bool) {s : WState} (ok : s.Ok) : (wstep done s).1.Keeps s ∧ Paid done s (wstep done s) := by
  obtain ⟨st, w, pos, wlen, pe, gi, ats, stk⟩ := s
  obtain ⟨ok1, ok2⟩ := ok
  simp only at ok1 ok2
  have a1 := scan_ge isWs w pos
  have a2 := scan_le (p := isWs) (w := w) (i := pos) (by omega)
  have a3 := scanReads_eq isWs w pos
  have tag : ∀ st', (wTagGi done ⟨st', w, pos, wlen, pe, gi, ats, stk⟩).1.Keeps ⟨st', w, pos, wlen, pe, gi, ats, stk⟩ ∧
      Paid done ⟨st', w, pos, wlen, pe, gi, ats, stk⟩ (wTagGi done ⟨st', w, pos, wlen, pe, gi, ats, stk⟩) := by
    intro st'
    simp only [wTagGi]
    cases hg : w[scan isWs w pos]? with
    | none => exact ⟨wwait_keeps rfl rfl a1 (by simp only; omega), paid_wwait (by simp only; omega)⟩
    | some c =>
      have hlt := lt_of_get hg
      have b1 := scan_ge isNameChar w (scan isWs w pos + 1)
      have b2 := scan_le (p := isNameChar) (w := w) (i := scan isWs w pos + 1) (by omega)
      have b3 := scanReads_eq isNameChar w (scan isWs w pos + 1)
      have b4 : (if st' = .preTagGi then scanReads isWs w pos + 1 else scanReads isWs w pos) ≤ scanReads isWs w pos + 1 := by
        split <;> omega
      simp only
      by_cases hc : st' = .preTagGi ∧ c = '/'
      · rw [if_pos hc]
        exact ⟨⟨rfl, rfl, by simp only; omega, by simp only; omega⟩, paid_cont (by simp only; omega) (by simp only; omega)⟩
      · rw [if_neg hc]
        by_cases hn : isNameStart c = true
        · rw [if_pos hn]
          cases hg2 : w[scan isNameChar w (scan isWs w pos + 1)]? with
          | none => exact ⟨wwait_keeps rfl rfl a1 (by simp only; omega), paid_wwait (by simp only; omega)⟩
          | some d =>
            exact ⟨⟨rfl, rfl, by simp only; omega, by simp only; omega⟩, paid_cont (by simp only; omega) (by simp only; omega)⟩
        · rw [if_neg hn]
          exact ⟨⟨rfl, rfl, by simp only; omega, by simp only; omega⟩, paid_cont (by simp only; omega) (by simp only; omega)⟩
  cases st with
  | preTagGi => exact tag _
  | preCompleteTagGi => exact tag _
  | preElement =>
    simp only [wstep, wPreElement]
    cases hg : w[scan isWs w pos]? with
    | none => exact ⟨wwait_keeps rfl rfl a1 (by simp only; omega), paid_wwait (by simp only; omega)⟩
    | some c =>
      have hlt := lt_of_get hg
      simp only
      split
      · exact ⟨⟨rfl, rfl, by simp only; omega, by simp only; omega⟩, paid_cont (by simp only; omega) (by simp only; omega)⟩
      · exact ⟨⟨rfl, rfl, by simp only; omega, by simp only; omega⟩, paid_cont (by simp only; omega) (by simp only; omega)⟩
  | completeTag =>
    simp only [wstep, wCompleteTag]
    cases hg : w[scan isWs w pos]? with
    | none => exact ⟨wwait_keeps rfl rfl a1 (by simp only; omega), paid_wwait (by simp only; omega)⟩
    | some c =>
      have hlt := lt_of_get hg
      have b4 : (if pe = false then scanReads isWs w pos + 1 else scanReads isWs w pos) ≤ scanReads isWs w pos + 1 := by
        split <;> omega
      simp only
      by_cases hc : pe = false ∧ isNameStart c = true
      · rw [if_pos hc]
        exact ⟨⟨rfl, rfl, by simp only; omega, by simp only; omega⟩, paid_cont (by simp only; omega) (by simp only; omega)⟩
      · rw [if_neg hc]
        by_cases hgt : c = '>'
        · rw [if_pos hgt]
          by_cases hp : pe = false
          · rw [if_pos hp]
            split
            · exact ⟨⟨rfl, rfl, by simp only; omega, by simp only; omega⟩, paid_pause (by simp only; omega)⟩
            · exact ⟨⟨rfl, rfl, by simp only; omega, by simp only; omega⟩, paid_cont (by simp only; omega) (by simp only; omega)⟩
          · rw [if_neg hp]
            cases stk with
            | nil => exact ⟨trivial, paid_fail (by simp only; omega)⟩
            | cons o stk =>
              simp only
              by_cases ho : o ≠ gi
              · rw [if_pos ho]; exact ⟨trivial, paid_fail (by simp only; omega)⟩
              · rw [if_neg ho]
                by_cases he : scan isWs w pos + 1 = wlen
                · rw [if_pos he]
                  exact ⟨⟨rfl, rfl, by simp only; omega, by simp only; omega⟩, paid_pause (by simp only; omega)⟩
                · rw [if_neg he]
                  exact ⟨⟨rfl, rfl, by simp only; omega, by simp only; omega⟩, paid_cont (by simp only; omega) (by simp only; omega)⟩
        · rw [if_neg hgt]; exact ⟨trivial, paid_fail (by simp only; omega)⟩
  | inElement =>
    simp only [wstep, wInElement]
    have hr := cdataLoop_reads (pat := isDataChar) (stop := '<') (w := w) pos [] (by omega)
    cases hc : (handleCdata pos w isDataChar '<').1 with
    | found t j =>
      have h1 := cdataLoop_found hc
      have h2 := lt_of_get h1.1
      have h3 : (handleCdata pos w isDataChar '<').2 ≤ _ := hr.2 t j hc
      simp only [if_pos h1.1]
      exact ⟨⟨rfl, rfl, by simp only; omega, by simp only; omega⟩, paid_cont (by simp only; omega) (by simp only; omega)⟩
    | none j =>
      have h3 : (handleCdata pos w isDataChar '<').2 ≤ _ := hr.1
      exact ⟨wwait_keeps rfl rfl (by simp only; omega) (by simp only; omega), paid_wwait (by simp only; omega)⟩
    | fail e =>
      have h3 : (handleCdata pos w isDataChar '<').2 ≤ _ := hr.1
      exact ⟨trivial, paid_fail (by simp only; omega)⟩
  | completeDoc =>
    simp only [wstep, wCompleteDoc]
    split
    · exact ⟨⟨rfl, rfl, by simp only; omega, by simp only; omega⟩, paid_pause (by simp only; omega)⟩
    · cases hg : w[scan isWs w pos]? with
      | none => exact ⟨wwait_keeps rfl rfl a1 (by simp only; omega), paid_wwait (by simp only; omega)⟩
      | some c =>
        simp only
        split
        · exact ⟨⟨rfl, rfl, by simp only; omega, by simp only; omega⟩, paid_pause (by simp only; omega)⟩
        · exact ⟨trivial, paid_fail (by simp only; omega)⟩
  | «attribute» =>
    simp only [wstep, wAttribute]
    have b1 := scan_ge isNameChar w (pos + 1)
    have b3 := scanReads_eq isNameChar w (pos + 1)
    cases hg : w[scan isNameChar w (pos + 1)]? with
    | none =>
      have b5 : scan isNameChar w (pos + 1) ≤ pos + 1 ∨ scan isNameChar w (pos + 1) ≤ w.length := by
        by_cases hp : pos + 1 ≤ w.length
        · exact .inr (scan_le hp)
        · left; rw [scan, dif_neg (by omega)]; omega
      exact ⟨wwait_keeps rfl rfl (by simp only; omega) (by simp only; omega), paid_wwait (by simp only; omega)⟩
    | some c0 =>
      have hlt := lt_of_get hg
      simp only
      generalize hp1 : scan isNameChar w (pos + 1) = p1 at *
      have c1 := scan_ge isWs w p1
      have c2 := scan_le (p := isWs) (w := w) (i := p1) (by omega)
      have c3 := scanReads_eq isWs w p1
      generalize hp2 : scan isWs w p1 = p2 at *
      cases hg1 : w[p2]? with
      | none => exact ⟨wwait_keeps rfl rfl (by simp only; omega) (by simp only; omega), paid_wwait (by simp only; omega)⟩
      | some d =>
        have hlt1 := lt_of_get hg1
        simp only
        by_cases hd : d = '='
        · rw [if_pos hd]
          by_cases hdn : done = false ∧ p2 + 1 = wlen
          · rw [if_pos hdn]
            exact ⟨⟨rfl, rfl, by simp only; omega, by simp only; omega⟩, paid_pause (by simp only; omega)⟩
          · rw [if_neg hdn]
            cases hg2 : w[p2 + 1]? with
            | none => exact ⟨trivial, paid_fail (by simp only; omega)⟩
            | some q =>
              have hlt2 := lt_of_get hg2
              simp only
              by_cases hq : q = '"' ∨ q = '\''
              · rw [if_pos hq]
                have hr := cdataLoop_reads (pat := attrPat q) (stop := q) (w := w) (p2 + 1 + 1) [] (by omega)
                cases hc : (handleCdata (p2 + 1 + 1) w (attrPat q) q).1 with
                | found t j =>
                  have h1 := cdataLoop_found hc
                  have h2 := lt_of_get h1.1
                  have h3 : (handleCdata (p2 + 1 + 1) w (attrPat q) q).2 ≤ _ := hr.2 t j hc
                  exact ⟨⟨rfl, rfl, by simp only; omega, by simp only; omega⟩,
                    paid_cont (by simp only; omega) (by simp only; omega)⟩
                | none j =>
                  have h3 : (handleCdata (p2 + 1 + 1) w (attrPat q) q).2 ≤ _ := hr.1
                  exact ⟨wwait_keeps rfl rfl (by simp only; omega) (by simp only; omega), paid_wwait (by simp only; omega)⟩
                | fail e =>
                  have h3 : (handleCdata (p2 + 1 + 1) w (attrPat q) q).2 ≤ _ := hr.1
                  exact ⟨trivial, paid_fail (by simp only; omega)⟩
              · rw [if_neg hq]
                exact ⟨⟨rfl, rfl, by simp only; omega, by simp only; omega⟩,
                  paid_cont (by simp only; omega) (by simp only; omega)⟩
        · rw [if_neg hd]; exact ⟨trivial, paid_fail (by simp only; omega)⟩

/-! ### runs and calls -/

def WStatus.unread : WStatus → Status
  | .paused s => .paused s.unread
  | .raised e => .raised e
  | .running s => .running s.unread

/-- The state a run leaves behind has the same window. -/
def WStatus.Keeps (s : WState) : WStatus → Prop
  | .paused s' => s'.window = s.window ∧ s'.wlen = s.wlen ∧ s.pos ≤ s'.pos ∧ s'.pos ≤ s.wlen
  | .running s' => s'.window = s.window ∧ s'.wlen = s.wlen ∧ s.pos ≤ s'.pos ∧ s'.pos ≤ s.wlen
  | .raised _ => True

theorem keeps_trans {s s' : WState} {x : WStatus} (h : s'.window = s.window ∧ s'.wlen = s.wlen ∧ s.pos ≤ s'.pos ∧ s'.pos ≤ s.wlen)
    (h' : x.Keeps s') : x.Keeps s := by
  obtain ⟨h1, h2, h3, h4⟩ := h
  cases x with
  | paused t => obtain ⟨g1, g2, g3, g4⟩ := h'; exact ⟨g1.trans h1, g2.trans h2, by omega, by omega⟩
  | running t => obtain ⟨g1, g2, g3, g4⟩ := h'; exact ⟨g1.trans h1, g2.trans h2, by omega, by omega⟩
  | raised e => trivial

theorem ok_of_keeps {s s' : WState} (ok : s.Ok) (h : s'.window = s.window ∧ s'.wlen = s.wlen ∧ s.pos ≤ s'.pos ∧ s'.pos ≤ s.wlen) :
    s'.Ok := by
  obtain ⟨h1, h2, h3, h4⟩ := h
  exact ⟨by rw [h2, h1]; exact ok.1, by rw [h2]; exact h4⟩

theorem wrun_unread (done : Bool) : ∀ (n : Nat) {s : WState}, s.Ok →
    (wrun done n s).1 = (run done n s.unread).1 ∧ (wrun done n s).2.1.unread = (run done n s.unread).2 ∧ (wrun done n s).2.1.Keeps s
  | 0, s, ok => ⟨rfl, rfl, rfl, rfl, Nat.le_refl _, ok.2⟩
  | n + 1, s, ok => by
    have h1 := wstep_unread done ok
    have h2 := (wstep_keeps_paid done ok).1
    simp only [wrun, run]
    rw [← h1]
    cases hr : wstep done s with
    | mk x k =>
      rw [hr] at h2
      cases x with
      | cont s' evs =>
        have ih := wrun_unread done n (ok_of_keeps ok h2)
        simp only [WStep.unread]
        exact ⟨by rw [ih.1], ih.2.1, keeps_trans h2 ih.2.2⟩
      | pause s' evs => exact ⟨rfl, rfl, h2⟩
      | fail e => exact ⟨rfl, rfl, trivial⟩

theorem unread_length {s : WState} (ok : s.Ok) : s.unread.rest.length = s.wlen - s.pos := by
  simp [WState.unread, ok.1]

/-- A run that ends before the last call reads at most 22 times for each unread character, and 18. -/
theorem wrun_reads : ∀ (n : Nat) {s : WState}, s.Ok → (∀ t, (wrun false n s).2.1 ≠ .running t) →
    (wrun false n s).2.2 ≤ 4 * (s.wlen - s.pos) + 6 * s.unread.meas + 6
  | 0, s, _, h => absurd rfl (h s)
  | n + 1, s, ok, h => by
    have h1 := wstep_unread false ok
    obtain ⟨h2, h3⟩ := wstep_keeps_paid false ok
    simp only [wrun] at h ⊢
    cases hr : wstep false s with
    | mk x k =>
      rw [hr] at h1 h2 h3 h
      cases x with
      | cont s' evs =>
        have ok' := ok_of_keeps ok h2
        simp only at h ⊢
        have ih := wrun_reads n ok' h
        obtain ⟨g1, g2, g3, g4⟩ := h2
        have hk := (h3.2 s' evs rfl).resolve_right (by simp)
        simp only at hk
        rcases step_progress h1.symm with hm | ⟨_, hm⟩
        · rw [g2] at ih; omega
        · exfalso
          have h5 := (wrun_unread false n ok').2.1
          rw [run_fix hm] at h5
          cases hx : (wrun false n s').2.1 with
          | paused t => rw [hx] at h5; simp [WStatus.unread] at h5
          | raised e => rw [hx] at h5; simp [WStatus.unread] at h5
          | running t => exact h t hx
      | pause s' evs => have := h3.1; simp only at this ⊢; omega
      | fail e => have := h3.1; simp only at this ⊢; omega

theorem wrun_more {done : Bool} : ∀ (n m : Nat) {s : WState}, (∀ t, (wrun done n s).2.1 ≠ .running t) → n ≤ m →
    wrun done m s = wrun done n s
  | 0, _, s, h, _ => absurd rfl (h s)
  | n + 1, m, s, h, hm => by
    obtain ⟨m, rfl⟩ : ∃ k, m = k + 1 := ⟨m - 1, by omega⟩
    simp only [wrun] at h ⊢
    cases hr : wstep done s with
    | mk x k =>
      rw [hr] at h
      cases x with
      | cont s' evs => simp only at h ⊢; rw [wrun_more n m h (by omega)]
      | pause s' evs => rfl
      | fail e => rfl

/-- What the last call does differently. -/
theorem wstep_last (s : WState) : wstep true s = wstep false s ∨
    (∃ s', (wstep false s).1 = .pause s' [] ∧ (wstep false s).1 = wwait false s' ∧ wstep true s = (wwait true s', (wstep false s).2)) ∨
    s.st = .attribute := by
  obtain ⟨st, w, pos, wlen, pe, gi, ats, stk⟩ := s
  have tag : ∀ st', wTagGi true ⟨st', w, pos, wlen, pe, gi, ats, stk⟩ = wTagGi false ⟨st', w, pos, wlen, pe, gi, ats, stk⟩ ∨
      ∃ s', (wTagGi false ⟨st', w, pos, wlen, pe, gi, ats, stk⟩).1 = .pause s' [] ∧
        (wTagGi false ⟨st', w, pos, wlen, pe, gi, ats, stk⟩).1 = wwait false s' ∧
        wTagGi true ⟨st', w, pos, wlen, pe, gi, ats, stk⟩ = (wwait true s', (wTagGi false ⟨st', w, pos, wlen, pe, gi, ats, stk⟩).2) := by
    intro st'
    simp only [wTagGi]
    cases hg : w[scan isWs w pos]? with
    | none => exact .inr ⟨_, rfl, rfl, rfl⟩
    | some c =>
      simp only
      by_cases hc : st' = .preTagGi ∧ c = '/'
      · rw [if_pos hc, if_pos hc]; exact .inl rfl
      · rw [if_neg hc, if_neg hc]
        by_cases hn : isNameStart c = true
        · rw [if_pos hn, if_pos hn]
          cases hg2 : w[scan isNameChar w (scan isWs w pos + 1)]? with
          | none => exact .inr ⟨_, rfl, rfl, rfl⟩
          | some d => exact .inl rfl
        · rw [if_neg hn, if_neg hn]; exact .inl rfl
  cases st with
  | preTagGi => rcases tag .preTagGi with h | h; exact .inl h; exact .inr (.inl h)
  | preCompleteTagGi => rcases tag .preCompleteTagGi with h | h; exact .inl h; exact .inr (.inl h)
  | «attribute» => exact .inr (.inr rfl)
  | preElement =>
    simp only [wstep, wPreElement]
    cases hg : w[scan isWs w pos]? with
    | none => exact .inr (.inl ⟨_, rfl, rfl, rfl⟩)
    | some c => exact .inl rfl
  | completeTag =>
    simp only [wstep, wCompleteTag]
    cases hg : w[scan isWs w pos]? with
    | none => exact .inr (.inl ⟨_, rfl, rfl, rfl⟩)
    | some c => exact .inl rfl
  | inElement =>
    simp only [wstep, wInElement]
    cases hc : (handleCdata pos w isDataChar '<').1 with
    | found t j => exact .inl rfl
    | none j => exact .inr (.inl ⟨_, rfl, rfl, rfl⟩)
    | fail e => exact .inl rfl
  | completeDoc =>
    simp only [wstep, wCompleteDoc]
    by_cases hp : pos = wlen
    · rw [if_pos hp, if_pos hp]; exact .inl rfl
    · rw [if_neg hp, if_neg hp]
      cases hg : w[scan isWs w pos]? with
      | none => exact .inr (.inl ⟨_, rfl, rfl, rfl⟩)
      | some c => exact .inl rfl

/-- In an attribute the last call does the same, unless the attribute is not complete. -/
theorem wstep_last_attribute {s : WState} (h : s.st = .attribute) :
    wstep true s = wstep false s ∨ ∃ s', (wstep false s).1 = .pause s' [] ∧ s'.st = .attribute := by
  obtain ⟨st, w, pos, wlen, pe, gi, ats, stk⟩ := s
  simp only at h
  subst h
  simp only [wstep, wAttribute]
  cases hg : w[scan isNameChar w (pos + 1)]? with
  | none => exact .inr ⟨_, rfl, rfl⟩
  | some c0 =>
    simp only
    generalize scan isNameChar w (pos + 1) = p1 at *
    generalize scan isWs w p1 = p2 at *
    cases hg1 : w[p2]? with
    | none => exact .inr ⟨_, rfl, rfl⟩
    | some d =>
      simp only
      by_cases hd : d = '='
      · rw [if_pos hd, if_pos hd]
        by_cases he : p2 + 1 = wlen
        · have e1 : True ∧ p2 + 1 = wlen := ⟨trivial, he⟩
          rw [if_pos e1]; exact .inr ⟨_, rfl, rfl⟩
        · have e1 : ¬ (true = false ∧ p2 + 1 = wlen) := by simp
          have e2 : ¬ (True ∧ p2 + 1 = wlen) := by simp [he]
          rw [if_neg e1, if_neg e2]
          cases hg2 : w[p2 + 1]? with
          | none => exact .inl rfl
          | some q =>
            simp only
            by_cases hq : q = '"' ∨ q = '\''
            · rw [if_pos hq, if_pos hq]
              cases hc : (handleCdata (p2 + 1 + 1) w (attrPat q) q).1 with
              | found t j => exact .inl rfl
              | none j => exact .inr ⟨_, rfl, rfl⟩
              | fail e => exact .inl rfl
            · rw [if_neg hq, if_neg hq]; exact .inl rfl
      · rw [if_neg hd, if_neg hd]; exact .inl rfl

/-- Waiting after the end of the document is waiting at the end of the window. -/
theorem wwait_completeDoc {s s' : WState} (ok : s.Ok) (h : (wstep false s).1 = wwait false s') (hst : s'.st = .completeDoc)
    (hne : wstep true s ≠ wstep false s) : s'.pos = s'.wlen := by
  obtain ⟨st, w, pos, wlen, pe, gi, ats, stk⟩ := s
  obtain ⟨ok1, ok2⟩ := ok
  simp only at ok1 ok2
  have a2 := scan_le (p := isWs) (w := w) (i := pos) (by omega)
  have tag : ∀ st', st' ≠ .completeDoc → (wTagGi false ⟨st', w, pos, wlen, pe, gi, ats, stk⟩).1 = wwait false s' → False := by
    intro st' hst' h
    simp only [wTagGi] at h
    cases hg : w[scan isWs w pos]? with
    | none => rw [hg] at h; simp only [wwait] at h; cases h; exact hst' hst
    | some c =>
      rw [hg] at h
      simp only at h
      by_cases hc : st' = .preTagGi ∧ c = '/'
      · rw [if_pos hc] at h; simp [wwait] at h
      · rw [if_neg hc] at h
        by_cases hn : isNameStart c = true
        · rw [if_pos hn] at h
          cases hg2 : w[scan isNameChar w (scan isWs w pos + 1)]? with
          | none => rw [hg2] at h; simp only [wwait] at h; cases h; exact hst' hst
          | some d => rw [hg2] at h; simp [wwait] at h
        · rw [if_neg hn] at h; simp [wwait] at h
  cases st with
  | preTagGi => exact (tag _ (by decide) h).elim
  | preCompleteTagGi => exact (tag _ (by decide) h).elim
  | «attribute» =>
    rcases wstep_last_attribute (s := ⟨.attribute, w, pos, wlen, pe, gi, ats, stk⟩) rfl with h1 | ⟨s2, h1, h2⟩
    · exact absurd h1 hne
    · rw [h1] at h; simp only [wwait] at h; cases h; rw [h2] at hst; cases hst
  | preElement =>
    simp only [wstep, wPreElement] at h
    cases hg : w[scan isWs w pos]? with
    | none => rw [hg] at h; simp only [wwait] at h; cases h; cases hst
    | some c => rw [hg] at h; simp only at h; split at h <;> simp [wwait] at h
  | completeTag =>
    simp only [wstep, wCompleteTag] at h hne
    cases hg : w[scan isWs w pos]? with
    | none => rw [hg] at h; simp only [wwait] at h; cases h; cases hst
    | some c => rw [hg] at hne; exact absurd rfl hne
  | inElement =>
    simp only [wstep, wInElement] at h
    cases hc : (handleCdata pos w isDataChar '<').1 with
    | found t j => rw [hc] at h; simp [wwait] at h
    | none j => rw [hc] at h; simp only [wwait] at h; cases h; cases hst
    | fail e => rw [hc] at h; simp [wwait] at h
  | completeDoc =>
    simp only [wstep, wCompleteDoc] at h hne
    by_cases hp : pos = wlen
    · rw [if_pos hp] at h; simp only [wwait] at h; cases h; exact hp
    · rw [if_neg hp] at h
      cases hg : w[scan isWs w pos]? with
      | none =>
        rw [hg] at h; simp only [wwait] at h; cases h
        rw [List.getElem?_eq_none_iff] at hg
        simp only; omega
      | some c => rw [if_neg hp, if_neg hp, hg] at hne; exact absurd rfl hne

/-- When the document is complete the last call does what another call would do. -/
theorem wrun_last : ∀ (n : Nat) {s s' : WState}, s.Ok → (wrun false n s).2.1 = .paused s' → s'.st = .completeDoc →
    wrun true (n + 1) s = wrun false n s
  | 0, s, s', _, h, _ => by simp [wrun] at h
  | n + 1, s, s', ok, h, hst => by
    have hk := (wstep_keeps_paid false ok).1
    rw [wrun] at h ⊢
    conv => rhs; rw [wrun]
    rcases wstep_last s with he | ⟨t, h1, h2, h3⟩ | ha
    · rw [he]
      cases hr : wstep false s with
      | mk x k =>
        rw [hr] at h hk
        cases x with
        | cont s1 evs =>
          simp only at h ⊢
          rw [wrun_last n (ok_of_keeps ok hk) h hst]
        | pause s1 evs => rfl
        | fail e => rfl
    · cases hr : wstep false s with
      | mk x k =>
        rw [hr] at h h1 h2 h3
        simp only at h1
        subst h1
        simp only [WStatus.paused.injEq] at h
        subst h
        by_cases hne : wstep true s = wstep false s
        · rw [hne, hr]
        · have hp := wwait_completeDoc ok (by rw [hr]; exact h2) hst hne
          rw [h3]
          simp [wwait, wrun, wstep, hst, wCompleteDoc, hp]
    · rcases wstep_last_attribute ha with he | ⟨t, h1, h2⟩
      · rw [he]
        cases hr : wstep false s with
        | mk x k =>
          rw [hr] at h hk
          cases x with
          | cont s1 evs =>
            simp only at h ⊢
            rw [wrun_last n (ok_of_keeps ok hk) h hst]
          | pause s1 evs => rfl
          | fail e => rfl
      · cases hr : wstep false s with
        | mk x k =>
          rw [hr] at h h1
          simp only at h1
          subst h1
          simp only [WStatus.paused.injEq] at h
          subst h
          rw [h2] at hst; cases hst

/-- No run reads more often than this. -/
theorem wrun_reads_any (done : Bool) : ∀ (n : Nat) {s : WState}, s.Ok → (wrun done n s).2.2 ≤ n * (4 * (s.wlen - s.pos) + 6)
  | 0, s, _ => by simp [wrun]
  | n + 1, s, ok => by
    obtain ⟨h2, h3⟩ := wstep_keeps_paid done ok
    simp only [wrun]
    cases hr : wstep done s with
    | mk x k =>
      rw [hr] at h2 h3
      have h4 := h3.1
      simp only at h4
      rw [Nat.succ_mul]
      cases x with
      | cont s' evs =>
        have ih := wrun_reads_any done n (ok_of_keeps ok h2)
        obtain ⟨g1, g2, g3, g4⟩ := h2
        have : n * (4 * (s'.wlen - s'.pos) + 6) ≤ n * (4 * (s.wlen - s.pos) + 6) := Nat.mul_le_mul_left _ (by omega)
        simp only; omega
      | pause s' evs => simp only; omega
      | fail e => simp only; omega

def WSession.unread : WSession → Session
  | .awaiting s => .awaiting s.unread
  | .finished _ => .finished
  | .dead => .dead
  | .hung s => .hung s.unread

/-- The states a parser object can be in. -/
def WSession.Ok : WSession → Prop
  | .awaiting s => s.Ok
  | _ => True

/-- A state with a fragment added to the window. -/
def WState.feed (s : WState) (frag : Str) : WState := { s with window := s.window ++ frag, wlen := s.wlen + frag.length }

theorem feed_ok {s : WState} (ok : s.Ok) (frag : Str) : (s.feed frag).Ok := by
  obtain ⟨h1, h2⟩ := ok
  refine ⟨?_, ?_⟩
  · simp [WState.feed, h1]
  · simp only [WState.feed]; omega

theorem feed_unread {s : WState} (ok : s.Ok) (frag : Str) : (s.feed frag).unread = { s.unread with rest := s.unread.rest ++ frag } := by
  obtain ⟨h1, h2⟩ := ok
  simp only [WState.feed, WState.unread]
  rw [List.drop_append_of_le_length (by omega)]

theorem wsend_awaiting {s : WState} {frag : Str} (done : Bool) (hf : frag ≠ []) :
    wsend (.awaiting s) frag done =
      match (wrun done (3 * ((s.feed frag).wlen - (s.feed frag).pos) + 3) (s.feed frag)).2.1 with
      | .paused s' => ((wrun done (3 * ((s.feed frag).wlen - (s.feed frag).pos) + 3) (s.feed frag)).1, .returned,
          (wrun done (3 * ((s.feed frag).wlen - (s.feed frag).pos) + 3) (s.feed frag)).2.2, if done then .finished s' else .awaiting s')
      | .raised e => ((wrun done (3 * ((s.feed frag).wlen - (s.feed frag).pos) + 3) (s.feed frag)).1, .raised e,
          (wrun done (3 * ((s.feed frag).wlen - (s.feed frag).pos) + 3) (s.feed frag)).2.2, .dead)
      | .running s' => ((wrun done (3 * ((s.feed frag).wlen - (s.feed frag).pos) + 3) (s.feed frag)).1, .never,
          (wrun done (3 * ((s.feed frag).wlen - (s.feed frag).pos) + 3) (s.feed frag)).2.2, .hung s') := by
  rw [wsend, if_neg hf]; rfl

/-- One call by index is one call on the unread suffix. -/
theorem wsend_unread (done : Bool) {p : WSession} (ok : p.Ok) (frag : Str) :
    (wsend p frag done).1 = (send p.unread frag done).1 ∧ (wsend p frag done).2.1 = (send p.unread frag done).2.1 ∧
      (wsend p frag done).2.2.2.unread = (send p.unread frag done).2.2 ∧ (wsend p frag done).2.2.2.Ok := by
  cases p with
  | finished s => exact ⟨rfl, rfl, rfl, trivial⟩
  | dead => exact ⟨rfl, rfl, rfl, trivial⟩
  | hung s => exact ⟨rfl, rfl, rfl, trivial⟩
  | awaiting s =>
    by_cases hf : frag = []
    · subst hf
      cases done with
      | false => exact ⟨rfl, rfl, rfl, ok⟩
      | true => exact ⟨rfl, rfl, rfl, trivial⟩
    · have ok1 := feed_ok (s := s) ok frag
      rw [wsend_awaiting done hf]
      simp only [WSession.unread, send]
      rw [if_neg hf, ← feed_unread (s := s) ok frag]
      simp only [enough]
      rw [unread_length ok1]
      obtain ⟨h1, h2, h3⟩ := wrun_unread done (3 * ((s.feed frag).wlen - (s.feed frag).pos) + 3) ok1
      rw [← h1, ← h2]
      generalize wrun done (3 * ((s.feed frag).wlen - (s.feed frag).pos) + 3) (s.feed frag) = r at *
      obtain ⟨evs, x, k⟩ := r
      cases x with
      | paused s' =>
        cases done with
        | false => exact ⟨rfl, rfl, rfl, ok_of_keeps ok1 h3⟩
        | true => exact ⟨rfl, rfl, rfl, trivial⟩
      | raised e => exact ⟨rfl, rfl, rfl, trivial⟩
      | running s' => exact ⟨rfl, rfl, rfl, trivial⟩

/-- The window after a call. -/
theorem wsend_window {done : Bool} {p : WState} (ok : p.Ok) {frag : Str} {s : WState}
    (h : (wsend (.awaiting p) frag done).2.2.2 = .awaiting s ∨ (wsend (.awaiting p) frag done).2.2.2 = .finished s) :
    s.window = p.window ++ frag := by
  by_cases hf : frag = []
  · subst hf
    cases done <;> simp [wsend] at h <;> simp [h]
  · rw [wsend_awaiting done hf] at h
    have h3 := (wrun_unread done (3 * ((p.feed frag).wlen - (p.feed frag).pos) + 3) (feed_ok ok frag)).2.2
    generalize wrun done (3 * ((p.feed frag).wlen - (p.feed frag).pos) + 3) (p.feed frag) = r at *
    obtain ⟨evs, x, k⟩ := r
    cases x with
    | paused s' =>
      cases done <;> simp at h <;> subst h <;> exact h3.1
    | raised e => simp at h
    | running s' => simp at h

end Amara.W
