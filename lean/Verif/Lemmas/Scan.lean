import Verif.Spec.Cut
import Verif.Lemmas.Inv
/-
The parser waits inside an attribute value only if the text so far ends inside a quoted value; fragment
independence.
-/
namespace Amara

theorem isNamedRefChar_eq (c : Char) : isNamedRefChar c = c.isAlphanum := by
  have e : ∀ (n : UInt32), (n ≤ c.val) ↔ (n.toNat ≤ c.val.toNat) := fun n => Iff.rfl
  have e' : ∀ (n : UInt32), (c.val ≤ n) ↔ (c.val.toNat ≤ n.toNat) := fun n => Iff.rfl
  have h : isNamedRefChar c = true ↔ c.isAlphanum = true := by
    simp only [isNamedRefChar, inRanges, Char.isAlphanum, Char.isAlpha, Char.isUpper, Char.isLower,
      Char.isDigit, List.any_cons, List.any_nil, Bool.or_false, Char.toNat, Bool.or_eq_true,
      Bool.and_eq_true, decide_eq_true_eq, ge_iff_le, e, e']
    have : 'A'.val.toNat = 65 ∧ 'Z'.val.toNat = 90 ∧ 'a'.val.toNat = 97 ∧ 'z'.val.toNat = 122 ∧
      '0'.val.toNat = 48 ∧ '9'.val.toNat = 57 := by decide
    omega
  cases h1 : isNamedRefChar c <;> cases h2 : c.isAlphanum <;> simp_all

theorem isHexDigit_alnum {c : Char} (h : isHexDigit c = true) : c.isAlphanum = true := by
  rw [← isNamedRefChar_eq]
  simp only [isHexDigit, isNamedRefChar, inRanges, List.any_cons, List.any_nil, Bool.or_eq_true,
    Bool.and_eq_true, decide_eq_true_eq, Bool.or_false] at h ⊢
  omega

/-- Where `handle_cdata` is, for the reader. -/
def CMode.scan (q : Char) : CMode → Scan
  | .txt => .val q
  | .amp => .amp q
  | .hash => .hash q
  | .hex _ => .ref q
  | .named _ => .ref q

theorem lost_stays (w : Str) : w.foldl Scan.next .lost = .lost := by
  induction w with
  | nil => rfl
  | cons c w ih => simpa [Scan.next] using ih

theorem CRes.push_more {c : Char} {x : CRes} (h : x.push c = .more) : x = .more := by
  cases x <;> simp [CRes.push] at h ⊢

theorem cdata_scan_found {q : Char} (hq : q = '"' ∨ q = '\'') : ∀ (r : Str) {m : CMode} {v t : Str},
    cdata (attrPat q) q m r = .found v t →
    ∃ p, r = p ++ t ∧ p.foldl Scan.next (m.scan q) = .tag := by
  have hamp : attrPat q '&' = false := by rcases hq with rfl | rfl <;> decide
  have hpq : attrPat q q = false := by rcases hq with rfl | rfl <;> decide
  have h1 : isNamedRefChar ';' = false := by decide
  have h2 : isHexDigit ';' = false := by decide
  intro r
  induction r with
  | nil => intro m v t h; cases m <;> simp [cdata] at h
  | cons c r ih =>
    intro m v t h
    have key : ∀ {m m' : CMode} {v}, cdata (attrPat q) q m' r = .found v t →
        (m.scan q).next c = m'.scan q →
        ∃ p, c :: r = p ++ t ∧ p.foldl Scan.next (m.scan q) = .tag := by
      intro m m' v h hn
      obtain ⟨p, hp, hf⟩ := ih h
      exact ⟨c :: p, by simp [hp], by simp [hn, hf]⟩
    have keyp : ∀ {m m' : CMode} {v d}, (cdata (attrPat q) q m' r).push d = .found v t →
        (m.scan q).next c = m'.scan q →
        ∃ p, c :: r = p ++ t ∧ p.foldl Scan.next (m.scan q) = .tag := by
      intro m m' v d h hn
      obtain ⟨v', h', _⟩ := CRes.push_found h
      exact key h' hn
    cases m <;> simp only [cdata] at h
    · split at h
      · rename_i hc
        refine keyp h ?_
        have n1 : c ≠ q := by rintro rfl; simp [hpq] at hc
        have n2 : c ≠ '&' := by rintro rfl; simp [hamp] at hc
        simp [CMode.scan, Scan.next, n1, n2]
      · split at h
        · rename_i hc; cases h
          exact ⟨[c], rfl, by simp [CMode.scan, Scan.next, hc]⟩
        · split at h
          · exact key h (by simp_all [CMode.scan, Scan.next])
          · exact key h (by simp_all [CMode.scan, Scan.next])
    · split at h
      · exact key h (by simp [CMode.scan, Scan.next, *])
      · split at h
        · rename_i hc
          exact key h (by rw [isNamedRefChar_eq] at hc; simp [CMode.scan, Scan.next, *])
        · split at h <;> cases h
    · split at h
      · exact key h (by simp [CMode.scan, Scan.next, *])
      · cases h
    · split at h
      · rename_i hc
        have : c ≠ ';' := by rintro rfl; simp [h2] at hc
        exact key h (by simp [CMode.scan, Scan.next, this, isHexDigit_alnum hc])
      · split at h
        · split at h
          · exact keyp h (by simp [CMode.scan, Scan.next, *])
          · cases h
        · cases h
    · split at h
      · rename_i hc
        have : c ≠ ';' := by rintro rfl; simp [h1] at hc
        exact key h (by rw [isNamedRefChar_eq] at hc; simp [CMode.scan, Scan.next, *])
      · split at h
        · split at h
          · exact keyp h (by simp [CMode.scan, Scan.next, *])
          · cases h
        · cases h

theorem cdata_scan_more {q : Char} (hq : q = '"' ∨ q = '\'') : ∀ (r : Str) {m : CMode},
    cdata (attrPat q) q m r = .more → (r.foldl Scan.next (m.scan q)).inside = true := by
  have hamp : attrPat q '&' = false := by rcases hq with rfl | rfl <;> decide
  have hpq : attrPat q q = false := by rcases hq with rfl | rfl <;> decide
  have h1 : isNamedRefChar ';' = false := by decide
  have h2 : isHexDigit ';' = false := by decide
  intro r
  induction r with
  | nil => intro m h; cases m <;> rfl
  | cons c r ih =>
    intro m h
    have key : ∀ {m m' : CMode}, cdata (attrPat q) q m' r = .more → (m.scan q).next c = m'.scan q →
        ((c :: r).foldl Scan.next (m.scan q)).inside = true := by
      intro m m' h hn
      simp [hn, ih h]
    have lost : ∀ {s : Scan}, s.next c = .lost → ((c :: r).foldl Scan.next s).inside = true := by
      intro s hn
      simp [hn, lost_stays, Scan.inside]
    cases m <;> simp only [cdata] at h
    · split at h
      · rename_i hc
        refine key (CRes.push_more h) ?_
        have n1 : c ≠ q := by rintro rfl; simp [hpq] at hc
        have n2 : c ≠ '&' := by rintro rfl; simp [hamp] at hc
        simp [CMode.scan, Scan.next, n1, n2]
      · split at h
        · cases h
        · split at h
          · exact key h (by simp_all [CMode.scan, Scan.next])
          · exact key h (by simp_all [CMode.scan, Scan.next])
    · split at h
      · exact key h (by simp [CMode.scan, Scan.next, *])
      · split at h
        · rename_i hc
          exact key h (by rw [isNamedRefChar_eq] at hc; simp [CMode.scan, Scan.next, *])
        · rename_i hn hc
          rw [isNamedRefChar_eq] at hc
          exact lost (by simp [CMode.scan, Scan.next, hn, hc])
    · split at h
      · exact key h (by simp [CMode.scan, Scan.next, *])
      · exact lost (by simp [CMode.scan, Scan.next, *])
    · split at h
      · rename_i hc
        have : c ≠ ';' := by rintro rfl; simp [h2] at hc
        exact key h (by simp [CMode.scan, Scan.next, this, isHexDigit_alnum hc])
      · split at h
        · split at h
          · exact key (CRes.push_more h) (by simp [CMode.scan, Scan.next, *])
          · cases h
        · cases h
    · split at h
      · rename_i hc
        have : c ≠ ';' := by rintro rfl; simp [h1] at hc
        exact key h (by rw [isNamedRefChar_eq] at hc; simp [CMode.scan, Scan.next, *])
      · split at h
        · split at h
          · exact key (CRes.push_more h) (by simp [CMode.scan, Scan.next, *])
          · cases h
        · rename_i hc hn
          rw [isNamedRefChar_eq] at hc
          exact lost (by simp [CMode.scan, Scan.next, hn, hc])

/-- In text, what is read up to '<' contains no '<'. -/
theorem cdata_text_prefix : ∀ (r : Str) {m : CMode} {v t : Str},
    cdata isDataChar '<' m r = .found v t → ∃ p, r = p ++ '<' :: t ∧ '<' ∉ p := by
  have h0 : isDataChar '<' = false := by decide
  have h1 : isNamedRefChar '<' = false := by decide
  have h2 : isHexDigit '<' = false := by decide
  intro r
  induction r with
  | nil => intro m v t h; cases m <;> simp [cdata] at h
  | cons c r ih =>
    intro m v t h
    have key : ∀ {m' v}, cdata isDataChar '<' m' r = .found v t → c ≠ '<' →
        ∃ p, c :: r = p ++ '<' :: t ∧ '<' ∉ p := by
      intro m' v h hc
      obtain ⟨p, hp, hf⟩ := ih h
      exact ⟨c :: p, by simp [hp], by simp [hf, Ne.symm hc]⟩
    have keyp : ∀ {m' v d}, (cdata isDataChar '<' m' r).push d = .found v t → c ≠ '<' →
        ∃ p, c :: r = p ++ '<' :: t ∧ '<' ∉ p := by
      intro m' v d h hn
      obtain ⟨v', h', _⟩ := CRes.push_found h
      exact key h' hn
    have n0 : isDataChar c = true → c ≠ '<' := by rintro h rfl; simp [h0] at h
    have n1 : isNamedRefChar c = true → c ≠ '<' := by rintro h rfl; simp [h1] at h
    have n2 : isHexDigit c = true → c ≠ '<' := by rintro h rfl; simp [h2] at h
    cases m <;> simp only [cdata] at h
    · split at h
      · exact keyp h (n0 (by assumption))
      · split at h
        · rename_i hc; cases h
          exact ⟨[], by simp [hc], by simp⟩
        · split at h <;> exact key h (by assumption)
    · split at h
      · rename_i hc; subst hc; exact key h (by decide)
      · split at h
        · exact key h (n1 (by assumption))
        · split at h <;> cases h
    · split at h
      · rename_i hc; subst hc; exact key h (by decide)
      · cases h
    · split at h
      · exact key h (n2 (by assumption))
      · split at h
        · rename_i hc; subst hc
          split at h
          · exact keyp h (by decide)
          · cases h
        · cases h
    · split at h
      · exact key h (n1 (by assumption))
      · split at h
        · rename_i hc; subst hc
          split at h
          · exact keyp h (by decide)
          · cases h
        · cases h

theorem scan_out {p : Str} (h : '<' ∉ p) : p.foldl Scan.next .out = .out := by
  induction p with
  | nil => rfl
  | cons c p ih =>
    simp only [List.mem_cons, not_or] at h
    have : c ≠ '<' := fun e => h.1 e.symm
    simpa [Scan.next, this] using ih h.2

theorem dropWs_prefix (r : Str) : ∃ p, r = p ++ dropWs r ∧ (∀ c ∈ p, isWs c = true) := by
  induction r with
  | nil => exact ⟨[], rfl, by simp⟩
  | cons c r ih =>
    simp only [dropWs]
    split
    · rename_i hc
      obtain ⟨p, hp, hw⟩ := ih
      refine ⟨c :: p, by simp [← hp], ?_⟩
      intro d hd
      rcases List.mem_cons.1 hd with rfl | hd
      · exact hc
      · exact hw d hd
    · exact ⟨[], rfl, by simp⟩

theorem takeName_dropName (r : Str) : r = takeName r ++ dropName r := by
  induction r with
  | nil => rfl
  | cons c r ih =>
    simp only [takeName, dropName]
    split
    · simp [← ih]
    · rfl

theorem scan_tag {p : Str} (h : ∀ c ∈ p, c ≠ '>' ∧ c ≠ '=') : p.foldl Scan.next .tag = .tag := by
  induction p with
  | nil => rfl
  | cons c p ih =>
    have := h c (by simp)
    simpa [Scan.next, this.1, this.2] using ih (fun d hd => h d (by simp [hd]))

theorem ws_tag {c : Char} (h : isWs c = true) : (c ≠ '>' ∧ c ≠ '=') ∧ c ≠ '<' := by
  rcases (isWs_iff c).1 h with rfl | rfl | rfl | rfl <;> decide

theorem name_tag {c : Char} (h : isNameChar c = true) : c ≠ '>' ∧ c ≠ '=' := by
  constructor <;> (rintro rfl; revert h; decide)

theorem start_tag {c : Char} (h : isNameStart c = true) :
    (c ≠ '>' ∧ c ≠ '=') ∧ ¬ (c = '"' ∨ c = '\'') := by
  refine ⟨⟨?_, ?_⟩, ?_⟩
  · rintro rfl; revert h; decide
  · rintro rfl; revert h; decide
  · rintro (rfl | rfl) <;> revert h <;> decide

/-- The parser's state agrees with the reader's. -/
def Sync (s : PState) (m : Scan) : Prop :=
  match s.st with
  | .preElement => m = .out
  | .inElement => m = .out
  | .completeDoc => m = .out
  | .attribute => ∃ c r, s.rest = c :: r ∧
      ((m = .tag ∧ isNameStart c = true) ∨ (m = .eq ∧ ¬ (c = '"' ∨ c = '\'')))
  | _ => m = .tag

theorem step_scan {s s' : PState} {evs : List Event} {m : Scan} (hS : Sync s m)
    (h : step false s = .cont s' evs) :
    ∃ p m', s.rest = p ++ s'.rest ∧ p.foldl Scan.next m = m' ∧ Sync s' m' := by
  obtain ⟨st, rest, pe, gi, at_, stk⟩ := s
  obtain ⟨p, hp, hpw⟩ := dropWs_prefix rest
  have hpt : p.foldl Scan.next .tag = .tag := scan_tag (fun c hc => (ws_tag (hpw c hc)).1)
  have hpo : p.foldl Scan.next .out = .out := scan_out (fun hc => (ws_tag (hpw _ hc)).2 rfl)
  cases st <;> simp only [step] at h <;> simp only [Sync] at hS
  · subst hS
    simp only [stepPreElement] at h
    split at h
    · simp [wait] at h
    · rename_i c r heq
      split at h <;> cases h
      · rename_i hc
        refine ⟨p ++ ['<'], .tag, ?_, ?_, rfl⟩
        · simp only [List.append_assoc]; rw [hp, heq, hc]; simp
        · simp [hpo, Scan.next]
      · exact ⟨p, .out, by simp only; rw [← heq, ← hp], hpo, rfl⟩
  · subst hS
    simp only [stepInElement] at h
    split at h
    · rename_i t r heq
      obtain ⟨p', hp', hn⟩ := cdata_text_prefix _ heq
      cases h
      refine ⟨p' ++ ['<'], .tag, ?_, ?_, rfl⟩
      · simp [hp']
      · simp [scan_out hn, Scan.next]
    · simp [wait] at h
    · cases h
  · subst hS
    simp only [stepTagGi] at h
    split at h
    · simp [wait] at h
    · rename_i c r heq
      split at h
      · rename_i hc
        cases h
        refine ⟨p ++ ['/'], .tag, ?_, ?_, rfl⟩
        · simp only [List.append_assoc]; rw [hp, heq, hc.2]; simp
        · simp [hpt, Scan.next]
      · split at h
        · rename_i hns
          split at h
          · simp [wait] at h
          · cases h
            refine ⟨p ++ c :: takeName r, .tag, ?_, ?_, rfl⟩
            · simp only [List.append_assoc, List.cons_append, ← takeName_dropName]; rw [← heq, ← hp]
            · have := start_tag hns
              simp [hpt, Scan.next, this.1, scan_tag (fun c hc => name_tag (takeName_all r c hc))]
        · cases h
          exact ⟨p, .tag, by simp only; rw [← heq, ← hp], hpt, rfl⟩
  · subst hS
    simp only [stepTagGi] at h
    split at h
    · simp [wait] at h
    · rename_i c r heq
      split at h
      · simp at *
      · split at h
        · rename_i hns
          split at h
          · simp [wait] at h
          · cases h
            refine ⟨p ++ c :: takeName r, .tag, ?_, ?_, rfl⟩
            · simp only [List.append_assoc, List.cons_append, ← takeName_dropName]; rw [← heq, ← hp]
            · have := start_tag hns
              simp [hpt, Scan.next, this.1, scan_tag (fun c hc => name_tag (takeName_all r c hc))]
        · cases h
          exact ⟨p, .tag, by simp only; rw [← heq, ← hp], hpt, rfl⟩
  · subst hS
    simp only [stepCompleteTag] at h
    split at h
    · simp [wait] at h
    · rename_i c r heq
      split at h
      · rename_i hc
        cases h
        exact ⟨p, .tag, by simp only; rw [← heq, ← hp], hpt, ⟨c, r, rfl, .inl ⟨rfl, hc.2⟩⟩⟩
      · split at h
        · rename_i hc
          have : ∃ p', rest = p' ++ r ∧ p'.foldl Scan.next .tag = .out := by
            refine ⟨p ++ ['>'], ?_, ?_⟩
            · rw [hp, heq, hc]; simp
            · simp [hpt, Scan.next]
          obtain ⟨p', h1, h2⟩ := this
          repeat' split at h
          all_goals first | (cases h; done) | skip
          all_goals cases h
          all_goals refine ⟨p', .out, h1, h2, ?_⟩
          all_goals rfl
        · cases h
  · subst hS
    simp only [stepCompleteDoc] at h
    repeat' split at h
    all_goals simp [wait] at h
  · obtain ⟨c, r, hr, hm⟩ := hS
    subst hr
    have hhead : m.next c = .tag := by
      rcases hm with ⟨rfl, hc⟩ | ⟨rfl, hc⟩
      · simp [Scan.next, (start_tag hc).1]
      · simp [Scan.next, hc]
    simp only [stepAttribute] at h
    split at h
    · simp [wait] at h
    · split at h
      · simp [wait] at h
      · rename_i d r3 heq
        obtain ⟨p2, hp2, hp2w⟩ := dropWs_prefix (dropName r)
        have hp2t : p2.foldl Scan.next .tag = .tag := scan_tag (fun c hc => (ws_tag (hp2w c hc)).1)
        have hnt : (takeName r).foldl Scan.next .tag = .tag :=
          scan_tag (fun c hc => name_tag (takeName_all r c hc))
        have hsplit : r = takeName r ++ (p2 ++ d :: r3) := by
          rw [← heq, ← hp2]; exact takeName_dropName r
        split at h
        · rename_i hdeq
          split at h
          · simp at h
          · rename_i q r4
            have e1 : c :: r = (c :: (takeName r ++ (p2 ++ ['=']))) ++ q :: r4 := by
              conv => lhs; rw [hsplit, hdeq]
              simp
            have e2 : (c :: (takeName r ++ (p2 ++ ['=']))).foldl Scan.next m = .eq := by
              simp only [List.foldl_cons, List.foldl_append, List.foldl_nil, hhead, hnt, hp2t]; rfl
            split at h
            · rename_i hq
              split at h
              · rename_i v r5 hc
                obtain ⟨p3, hp3, hs3⟩ := cdata_scan_found hq _ hc
                cases h
                refine ⟨(c :: (takeName r ++ (p2 ++ ['=']))) ++ q :: p3, .tag, ?_, ?_, rfl⟩
                · simp only; rw [e1, hp3]; simp
                · rw [List.foldl_append, e2]
                  simpa [Scan.next, hq, CMode.scan] using hs3
              · simp [wait] at h
              · cases h
            · rename_i hq
              cases h
              exact ⟨_, .eq, e1, e2, ⟨q, r4, rfl, .inr ⟨rfl, hq⟩⟩⟩
        · cases h

theorem step_scan_pause {s s' : PState} {evs : List Event} {m : Scan} (hS : Sync s m)
    (h : step false s = .pause s' evs) (hm : s'.midValue) :
    (s.rest.foldl Scan.next m).inside = true := by
  obtain ⟨st, rest, pe, gi, at_, stk⟩ := s
  obtain ⟨hm1, q, r4, hm2, hm3⟩ := hm
  cases st <;> simp only [step] at h <;> simp only [Sync] at hS
  all_goals first
    | (simp only [stepPreElement] at h)
    | (simp only [stepInElement] at h)
    | (simp only [stepTagGi] at h)
    | (simp only [stepCompleteTag] at h)
    | (simp only [stepCompleteDoc] at h)
    | skip
  iterate 6
    · repeat' split at h
      all_goals first
        | (cases h; done)
        | (obtain ⟨-, rfl, rfl⟩ := wait_pause h; simp at hm1; done)
        | (cases h; simp at hm1; done)
        | (cases h; simp at hm1; split at hm1 <;> simp at hm1; done)
  obtain ⟨c, r, hr, hmd⟩ := hS
  subst hr
  have hcq : ¬ (c = '"' ∨ c = '\'') := by
    rcases hmd with ⟨rfl, hc⟩ | ⟨rfl, hc⟩
    · exact (start_tag hc).2
    · exact hc
  have hhead : m.next c = .tag := by
    rcases hmd with ⟨rfl, hc⟩ | ⟨rfl, hc⟩
    · simp [Scan.next, (start_tag hc).1]
    · simp [Scan.next, hc]
  have bad : ∀ {x : PState}, x.rest = c :: r → x = s' → False := by
    rintro x hx rfl
    rw [hx] at hm2; cases hm2
    exact hcq hm3
  simp only [stepAttribute] at h
  split at h
  · obtain ⟨-, rfl, rfl⟩ := wait_pause h
    exact (bad rfl rfl).elim
  · split at h
    · obtain ⟨-, rfl, rfl⟩ := wait_pause h
      exact (bad rfl rfl).elim
    · rename_i d r3 heq
      obtain ⟨p2, hp2, hp2w⟩ := dropWs_prefix (dropName r)
      have hp2t : p2.foldl Scan.next .tag = .tag := scan_tag (fun c hc => (ws_tag (hp2w c hc)).1)
      have hnt : (takeName r).foldl Scan.next .tag = .tag :=
        scan_tag (fun c hc => name_tag (takeName_all r c hc))
      have hsplit : r = takeName r ++ (p2 ++ d :: r3) := by
        rw [← heq, ← hp2]; exact takeName_dropName r
      split at h
      · rename_i hdeq
        split at h
        · simp at h
          exact (bad rfl h.1).elim
        · rename_i q' r4'
          split at h
          · rename_i hq
            split at h
            · cases h
            · rename_i hc
              have hins := cdata_scan_more hq _ hc
              have e1 : c :: r = (c :: (takeName r ++ (p2 ++ ['=']))) ++ q' :: r4' := by
                conv => lhs; rw [hsplit, hdeq]
                simp
              have e2 : (c :: (takeName r ++ (p2 ++ ['=']))).foldl Scan.next m = .eq := by
                simp only [List.foldl_cons, List.foldl_append, List.foldl_nil, hhead, hnt, hp2t]; rfl
              simp only
              rw [e1, List.foldl_append, e2]
              simpa [Scan.next, hq, CMode.scan] using hins
            · cases h
          · cases h
      · cases h

theorem exec_scan {s s' : PState} {evs : List Event} {m : Scan} (hS : Sync s m)
    (h : exec false s = (evs, .paused s')) (hm : s'.midValue) :
    (s.rest.foldl Scan.next m).inside = true := by
  have H := exec_induct (done := false)
    (P := fun s evs o => ∀ m, Sync s m → ∀ s', o = .paused s' → s'.midValue →
      (s.rest.foldl Scan.next m).inside = true) ?_ ?_ ?_ ?_ s
  · rw [h] at H; exact H m hS s' rfl hm
  · intro s s1 evs hs m hS s' ho hm; cases ho; exact step_scan_pause hS hs hm
  · intro s e _ m _ s' h; cases h
  · intro s _ m _ s' h; cases h
  · intro s s1 evs evs' o hs ih m hS s' ho hm
    obtain ⟨p, m', hp, hpm, hS'⟩ := step_scan hS hs
    rw [hp, List.foldl_append, hpm]
    exact ih m' hS' s' ho hm

theorem exec_init : exec false PState.init = ([], .paused PState.init) := by decide

/-- From a state reached by a text that does not end inside a value: fragment independence. -/
theorem sendAll_eq : ∀ (frags : List Str) (X : Str) (E : List Event) (s : PState),
    exec false (PState.init.app X) = (E, .paused s) →
    (∀ k, k < frags.length → endsInValue (X ++ (frags.take k).flatten) = false) →
    ∃ s', exec false (PState.init.app (X ++ frags.flatten)) =
      (E ++ (sendAll (.awaiting s) frags).1, s') ∧
      match s' with
      | .paused s1 => (sendAll (.awaiting s) frags).2 = (.returned, .awaiting s1)
      | .raised e => (sendAll (.awaiting s) frags).2 = (.raised e, .dead)
      | .running _ => (sendAll (.awaiting s) frags).2.1 = .never := by
  intro frags
  induction frags with
  | nil => intro X E s h _; exact ⟨_, by simpa [sendAll] using h, by simp [sendAll]⟩
  | cons f fs ih =>
    intro X E s h hcut
    have hX : ¬ s.midValue := by
      intro hm
      have h0 := hcut 0 (by simp)
      have := exec_scan (m := .out) (by simp [Sync, PState.init, PState.app]) h hm
      simp [endsInValue, PState.app, PState.init] at this h0
      simp [this] at h0
    have hcut' : ∀ k, k < fs.length → endsInValue ((X ++ f) ++ (fs.take k).flatten) = false := by
      intro k hk
      have := hcut (k + 1) (by simp; omega)
      simpa using this
    by_cases hf : f = []
    · subst hf
      have := ih X E s h (by simpa using hcut')
      simpa [sendAll, send] using this
    · have hx := exec_app_paused hf h hX
      simp only [PState.app_app] at hx
      have hsa := send_awaiting s hf false
      cases hs : exec false (s.app f) with
      | mk E1 o =>
        rw [hs] at hx hsa
        cases o with
        | paused s1 =>
          obtain ⟨s', h1, h2⟩ := ih (X ++ f) _ s1 hx hcut'
          refine ⟨s', ?_, ?_⟩
          · simpa [sendAll, hsa] using h1
          · cases s' <;> simpa [sendAll, hsa] using h2
        | raised e =>
          refine ⟨.raised e, ?_, ?_⟩
          · have := exec_app_raised fs.flatten hx
            simpa [sendAll, hsa] using this
          · simp [sendAll, hsa]
        | running s1 =>
          refine ⟨.running (s1.app fs.flatten), ?_, ?_⟩
          · have := exec_app_running fs.flatten hx
            simpa [sendAll, hsa] using this
          · simp [sendAll, hsa]

end Amara
