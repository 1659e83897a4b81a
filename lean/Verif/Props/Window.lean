import Verif.Spec.Window
import Verif.Lemmas.Window
import Verif.Props.Parser
/-
C155: how much text a parser object holds, and how often it reads it.
-/
namespace Amara
open W

/-! ### the two models of the parser agree -/

/-- C155.  Call by call, the parser that keeps its whole window and an index into it delivers the events and gives the outcomes of the
parser of `Model/Parser`, about which the other properties are proved. -/
theorem C155_same_as_on_the_suffix (h : List (Str × Bool)) :
    ((wsends wnew h).1.map (·.1)).flatten = (sends newParser h).1 ∧ (wsends wnew h).2.unread = (sends newParser h).2 := by
  suffices H : ∀ p : WSession, p.Ok → ((wsends p h).1.map (·.1)).flatten = (sends p.unread h).1 ∧
      (wsends p h).2.unread = (sends p.unread h).2 from H wnew ⟨rfl, Nat.le_refl _⟩
  induction h with
  | nil => intro p _; exact ⟨rfl, rfl⟩
  | cons x h ih =>
    obtain ⟨f, d⟩ := x
    intro p ok
    obtain ⟨h1, _, h3, h4⟩ := wsend_unread d ok f
    have ih := ih _ h4
    simp only [wsends, sends, List.map_cons, List.flatten_cons]
    rw [ih.1, ih.2, h1, h3]
    exact ⟨rfl, rfl⟩

theorem wsends_ok (h : List (Str × Bool)) {p : WSession} (ok : p.Ok) : (wsends p h).2.Ok := by
  induction h generalizing p with
  | nil => exact ok
  | cons x h ih => exact ih (wsend_unread x.2 ok x.1).2.2.2

/-- C155: each call of a sequence also has the outcome it has there. -/
theorem C155_same_outcome (h : List (Str × Bool)) (f : Str) (d : Bool) :
    (wsend (wsends wnew h).2 f d).1 = (send (sends newParser h).2 f d).1 ∧
      (wsend (wsends wnew h).2 f d).2.1 = (send (sends newParser h).2 f d).2.1 := by
  have h1 := wsend_unread d (wsends_ok h (p := wnew) ⟨rfl, Nat.le_refl _⟩) f
  rw [(C155_same_as_on_the_suffix h).2] at h1
  exact ⟨h1.1, h1.2.1⟩

/-! ### memory -/

theorem wsends_not_awaiting {p : WSession} (hp : ∀ s, p ≠ .awaiting s) (h : List (Str × Bool)) (hne : h ≠ []) :
    (wsends p h).2.held = none := by
  have dead : ∀ h : List (Str × Bool), (wsends .dead h).2 = .dead := by
    intro h; induction h with
    | nil => rfl
    | cons x h ih => exact ih
  have hung : ∀ (s : WState) (h : List (Str × Bool)), (wsends (.hung s) h).2 = .hung s := by
    intro s h; induction h with
    | nil => rfl
    | cons x h ih => exact ih
  cases h with
  | nil => exact absurd rfl hne
  | cons x h =>
    cases p with
    | awaiting s => exact absurd rfl (hp s)
    | finished s => show (wsends .dead h).2.held = none; rw [dead]; rfl
    | dead => show (wsends .dead h).2.held = none; rw [dead]; rfl
    | hung s => show (wsends (.hung s) h).2.held = none; rw [hung]; rfl

/-- C155 (the claim that a parser holds no more than the unfinished piece is false).  Whatever has been passed to it, a suspended
parser object holds all of it. -/
theorem C155_holds_everything (h : List (Str × Bool)) (w : Str) (hw : (wsends wnew h).2.held = some w) : w = fed h := by
  suffices H : ∀ (h : List (Str × Bool)) (p : WState), p.Ok → (wsends (.awaiting p) h).2.held = some w → w = p.window ++ fed h from
    H h .init ⟨rfl, Nat.le_refl _⟩ hw
  intro h
  induction h with
  | nil => intro p _ hw; simp only [wsends, WSession.held, Option.some.injEq] at hw; simp [fed, hw]
  | cons x h ih =>
    obtain ⟨f, d⟩ := x
    intro p ok hw
    have hok : (wsend (.awaiting p) f d).2.2.2.Ok := (wsend_unread d (p := .awaiting p) ok f).2.2.2
    have hwin : ∀ s : WState, ((wsend (.awaiting p) f d).2.2.2 = .awaiting s ∨ (wsend (.awaiting p) f d).2.2.2 = .finished s) →
        s.window = p.window ++ f := fun s => wsend_window ok
    simp only [wsends] at hw
    have hfed : fed ((f, d) :: h) = f ++ fed h := rfl
    rw [hfed, ← List.append_assoc]
    cases hs : (wsend (.awaiting p) f d).2.2.2 with
    | awaiting s =>
      rw [hs] at hw hok
      rw [ih s hok hw, hwin s (.inl hs)]
    | finished s =>
      rw [hs] at hw
      cases h with
      | nil =>
        simp only [wsends, WSession.held, Option.some.injEq] at hw
        rw [← hw, hwin s (.inr hs)]; simp [fed]
      | cons y h => rw [wsends_not_awaiting (by simp) _ (by simp)] at hw; simp at hw
    | dead =>
      rw [hs] at hw
      cases h with
      | nil => simp [wsends, WSession.held] at hw
      | cons y h => rw [wsends_not_awaiting (by simp) _ (by simp)] at hw; simp at hw
    | hung s =>
      rw [hs] at hw
      cases h with
      | nil => simp [wsends, WSession.held] at hw
      | cons y h => rw [wsends_not_awaiting (by simp) _ (by simp)] at hw; simp at hw

/-- After a document fed in two pieces, nothing of which is still unread, the whole text is held. -/
example : (wsends wnew [("<a>te".toList, false), ("xt</a>".toList, false)]).2.held = some "<a>text</a>".toList ∧
    (wsends wnew [("<a>te".toList, false), ("xt</a>".toList, false)]).2.pending = 0 := by decide +kernel

theorem trim_ok {p : WSession} (ok : p.Ok) : p.trim.Ok := by
  cases p with
  | awaiting s =>
    refine ⟨?_, ?_⟩
    · simp only [List.length_drop]; rw [ok.1]
    · simp
  | finished s => trivial
  | dead => trivial
  | hung s => trivial

theorem trim_unread {p : WSession} (_ok : p.Ok) : p.trim.unread = p.unread := by
  cases p <;> simp [WSession.trim, WSession.unread, WState.unread]

/-- C155.  Nothing that has been read is needed again: a parser that throws it away before every call delivers the same events and gives
the same outcomes. -/
theorem C155_the_read_part_is_not_needed (h : List (Str × Bool)) :
    (trimmedSends wnew h).1.map (fun r => (r.1, r.2.1)) = (wsends wnew h).1.map (fun r => (r.1, r.2.1)) := by
  suffices H : ∀ p q : WSession, p.Ok → q.Ok → p.unread = q.unread →
      (trimmedSends p h).1.map (fun r => (r.1, r.2.1)) = (wsends q h).1.map (fun r => (r.1, r.2.1)) from
    H wnew wnew ⟨rfl, Nat.le_refl _⟩ ⟨rfl, Nat.le_refl _⟩ rfl
  induction h with
  | nil => intro p q _ _ _; rfl
  | cons x h ih =>
    obtain ⟨f, d⟩ := x
    intro p q hp hq hpq
    obtain ⟨a1, a2, a3, a4⟩ := wsend_unread d (trim_ok hp) f
    obtain ⟨b1, b2, b3, b4⟩ := wsend_unread d hq f
    rw [trim_unread hp, hpq] at a1 a2 a3
    simp only [trimmedSends, wsends, List.map_cons]
    rw [ih _ _ a4 b4 (a3.trans b3.symm), a1, a2, b1, b2]

/-! ### work -/

theorem wsend_reads {p : WState} (ok : p.Ok) (f : Str) (hr : (wsend (.awaiting p) f false).2.1 ≠ .never) :
    (wsend (.awaiting p) f false).2.2.1 ≤ 22 * (p.wlen - p.pos + f.length) + 18 := by
  by_cases hf : f = []
  · subst hf; simp [wsend]
  · have ok1 := feed_ok ok f
    rw [wsend_awaiting false hf] at hr ⊢
    have hu := unread_length ok1
    have hm : (p.feed f).unread.meas ≤ 3 * ((p.feed f).wlen - (p.feed f).pos) + 2 := by
      have := St.rank_le (p.feed f).unread.st
      rw [PState.meas, hu]; omega
    have hl : (p.feed f).wlen - (p.feed f).pos ≤ p.wlen - p.pos + f.length := by
      have := ok.2; simp only [WState.feed]; omega
    have key := wrun_reads (3 * ((p.feed f).wlen - (p.feed f).pos) + 3) ok1
    cases hx : (wrun false (3 * ((p.feed f).wlen - (p.feed f).pos) + 3) (p.feed f)).2.1 with
    | paused s => have := key (by rw [hx]; simp); simp only; omega
    | raised e => have := key (by rw [hx]; simp); simp only; omega
    | running s => rw [hx] at hr; exact absurd rfl hr

/-- C155.  After any calls, a call that is not the last one and ends, ends after at most 22 reads for each character that was still pending
or is new, and 18. -/
theorem C155_work_of_a_call (h : List (Str × Bool)) (f : Str) (hr : (wsend (wsends wnew h).2 f false).2.1 ≠ .never) :
    (wsend (wsends wnew h).2 f false).2.2.1 ≤ 22 * ((wsends wnew h).2.pending + f.length) + 18 := by
  have ok := wsends_ok h (p := wnew) ⟨rfl, Nat.le_refl _⟩
  cases hp : (wsends wnew h).2 with
  | awaiting p => rw [hp] at ok hr; exact wsend_reads ok f hr
  | finished p => simp [wsend]
  | dead => simp [wsend]
  | hung p => simp [wsend]

/-- C155: a text passed in one call costs a number of reads proportional to its length. -/
theorem C155_work_in_one_call (text : Str) (hr : (wsend wnew text false).2.1 ≠ .never) :
    (wsend wnew text false).2.2.1 ≤ 22 * text.length + 18 := by
  have := C155_work_of_a_call [] text hr
  simpa [wsends, wnew, WSession.pending, WState.init] using this

/-- C155: also when the only call is the last one, as in `parse`, if the text is a document. -/
theorem C155_work_of_parse (text : Str) (s : WState) (hs : (wsend wnew text false).2.2.2 = .awaiting s) (hdoc : s.st = .completeDoc) :
    (wsend wnew text true).1 = (wsend wnew text false).1 ∧ (wsend wnew text true).2.1 = .returned ∧
      (wsend wnew text true).2.2.1 ≤ 22 * text.length + 18 := by
  by_cases hf : text = []
  · subst hf
    simp only [wsend, wnew, if_true] at hs
    cases hs
    cases hdoc
  · have ok1 := feed_ok (s := .init) ⟨rfl, Nat.le_refl _⟩ text
    have hw := C155_work_in_one_call text
    simp only [wnew] at hs hw ⊢
    rw [wsend_awaiting false hf] at hs hw ⊢
    rw [wsend_awaiting true hf]
    have hm : (WState.init.feed text).unread.meas < 3 * ((WState.init.feed text).wlen - (WState.init.feed text).pos) + 3 := by
      have := St.rank_le (WState.init.feed text).unread.st
      rw [PState.meas, unread_length ok1]; omega
    generalize hn : 3 * ((WState.init.feed text).wlen - (WState.init.feed text).pos) + 3 = n at *
    cases hx : (wrun false n (WState.init.feed text)).2.1 with
    | paused t =>
      rw [hx] at hs hw
      simp only [Bool.false_eq_true, if_false, WSession.awaiting.injEq] at hs
      subst hs
      have hl := wrun_last n ok1 hx hdoc
      have h1 := (wrun_unread true (n + 1) ok1).2.1
      have h2 := (wrun_unread true n ok1).2.1
      rw [run_stable (n + 1) _ (by omega) n hm, ← h2, hl, hx] at h1
      have hnr : ∀ u, (wrun true n (WState.init.feed text)).2.1 ≠ .running u := by
        intro u hu; rw [hu] at h1; simp [WStatus.unread] at h1
      have he := (wrun_more n (n + 1) hnr (by omega)).symm.trans hl
      simp only [he, hx]
      refine ⟨trivial, trivial, ?_⟩
      exact hw (by simp)
    | raised e => rw [hx] at hs; simp at hs
    | running t => rw [hx] at hs; simp at hs

example : (wsend wnew "<a b='c'>text</a>".toList false).2.2.2 =
      .awaiting ⟨.completeDoc, "<a b='c'>text</a>".toList, 17, 17, true, "a".toList, [], []⟩ ∧
    (wsend wnew "<a b='c'>text</a>".toList true).2.2.1 = 34 := by decide +kernel

/-- C155: no call that ends, the last one included, reads more often than this. -/
theorem C155_work_of_any_call (h : List (Str × Bool)) (f : Str) (d : Bool) :
    (wsend (wsends wnew h).2 f d).2.2.1 ≤
      (3 * ((wsends wnew h).2.pending + f.length) + 3) * (4 * ((wsends wnew h).2.pending + f.length) + 6) := by
  have ok := wsends_ok h (p := wnew) ⟨rfl, Nat.le_refl _⟩
  cases hp : (wsends wnew h).2 with
  | awaiting p =>
    rw [hp] at ok
    by_cases hf : f = []
    · subst hf; simp [wsend]
    · have hl : (p.feed f).wlen - (p.feed f).pos = p.wlen - p.pos + f.length := by
        have := ok.2; simp only [WState.feed]; omega
      have := wrun_reads_any d (3 * ((p.feed f).wlen - (p.feed f).pos) + 3) (feed_ok ok f)
      rw [wsend_awaiting d hf]
      simp only [hl, WSession.pending] at this ⊢
      cases hx : (wrun d (3 * (p.wlen - p.pos + f.length) + 3) (p.feed f)).2.1 <;> exact this
  | finished p => simp [wsend]
  | dead => simp [wsend]
  | hung p => simp [wsend]

theorem foldl_add (l : List Nat) (a : Nat) : l.foldl (· + ·) a = a + l.foldl (· + ·) 0 := by
  induction l generalizing a with
  | nil => simp
  | cons x l ih => simp only [List.foldl_cons]; rw [ih, ih (0 + x)]; omega

theorem totalReads_cons (r : List Event × SendRes × Nat) (rs : List (List Event × SendRes × Nat)) :
    totalReads (r :: rs) = r.2.2 + totalReads rs := by
  simp only [totalReads, List.map_cons, List.foldl_cons]; rw [foldl_add]; omega

/-- What is pending is part of what has been received. -/
theorem pending_le {p : WState} (ok : p.Ok) {f : Str} {s : WState} (hs : (wsend (.awaiting p) f false).2.2.2 = .awaiting s) :
    s.wlen - s.pos ≤ p.wlen - p.pos + f.length := by
  by_cases hf : f = []
  · subst hf; simp only [wsend, if_true, Bool.false_eq_true, if_false, WSession.awaiting.injEq] at hs; subst hs; omega
  · have ok1 := feed_ok ok f
    have hk := (wrun_unread false (3 * ((p.feed f).wlen - (p.feed f).pos) + 3) ok1).2.2
    rw [wsend_awaiting false hf] at hs
    generalize wrun false (3 * ((p.feed f).wlen - (p.feed f).pos) + 3) (p.feed f) = r at *
    obtain ⟨evs, x, k⟩ := r
    cases x with
    | paused t =>
      simp only [Bool.false_eq_true, if_false, WSession.awaiting.injEq] at hs
      subst hs
      obtain ⟨g1, g2, g3, g4⟩ := hk
      have := ok.2
      simp only [WState.feed] at g2 g3 g4
      omega
    | raised e => simp at hs
    | running t => simp at hs

/-- C155.  Calls that all end read, together, at most 22 times for each character passed in and each call, and 18 for each call. -/
theorem C155_work_of_all_calls (fs : List Str) (hr : ∀ r ∈ (wsends wnew (fs.map (·, false))).1, r.2.1 ≠ .never) :
    totalReads (wsends wnew (fs.map (·, false))).1 ≤ fs.length * (22 * fs.flatten.length + 18) := by
  suffices H : ∀ (fs : List Str) (p : WSession), p.Ok → (∀ r ∈ (wsends p (fs.map (·, false))).1, r.2.1 ≠ .never) →
      totalReads (wsends p (fs.map (·, false))).1 ≤ fs.length * (22 * (p.pending + fs.flatten.length) + 18) by
    have := H fs wnew ⟨rfl, Nat.le_refl _⟩ hr
    simpa [wnew, WSession.pending, WState.init] using this
  intro fs
  induction fs with
  | nil => intro p _ _; simp [wsends, totalReads]
  | cons f fs ih =>
    intro p ok hr
    simp only [List.map_cons, wsends] at hr ⊢
    rw [totalReads_cons]
    simp only [List.flatten_cons, List.length_append, List.length_cons]
    have hok := (wsend_unread false ok f).2.2.2
    have ih := ih _ hok (fun r hm => hr r (List.mem_cons_of_mem _ hm))
    have h0 := hr _ (List.mem_cons_self ..)
    simp only at h0
    have h1 : (wsend p f false).2.2.1 ≤ 22 * (p.pending + f.length) + 18 := by
      cases p with
      | awaiting s => exact wsend_reads ok f h0
      | finished s => simp [wsend]
      | dead => simp [wsend]
      | hung s => simp [wsend]
    have h2 : (wsend p f false).2.2.2.pending ≤ p.pending + f.length := by
      cases p with
      | awaiting s =>
        cases hs : (wsend (.awaiting s) f false).2.2.2 with
        | awaiting t => exact pending_le ok hs
        | finished t => simp [WSession.pending]
        | dead => simp [WSession.pending]
        | hung t => simp [WSession.pending]
      | finished s => simp [wsend, WSession.pending]
      | dead => simp [wsend, WSession.pending]
      | hung s => simp [wsend, WSession.pending]
    have h3 : fs.length * (22 * ((wsend p f false).2.2.2.pending + fs.flatten.length) + 18) ≤
        fs.length * (22 * (p.pending + (f.length + fs.flatten.length)) + 18) := Nat.mul_le_mul_left _ (by omega)
    rw [Nat.succ_mul]
    omega

/-! ### the work is not proportional to the text -/

theorem scan_all {p : Char → Bool} {w : Str} {i : Nat} (hi : i ≤ w.length) (h : ∀ c ∈ w.drop i, p c = true) : scan p w i = w.length := by
  have h1 := drop_scan p w i
  have h2 : (w.drop i).dropWhile p = [] := by
    generalize w.drop i = l at h
    induction l with
    | nil => rfl
    | cons c l ih => rw [List.dropWhile_cons, if_pos (h c (List.mem_cons_self ..))]; exact ih (fun d hd => h d (List.mem_cons_of_mem _ hd))
  rw [h2, List.drop_eq_nil_iff] at h1
  have := scan_le (p := p) hi
  omega

/-- A piece of text that goes on: everything since the text began is read again. -/
theorem wsend_more_text {s : WState} (ok : s.Ok) (hst : s.st = .inElement) {f : Str} (hf : f ≠ [])
    (hp : ∀ c ∈ s.window.drop s.pos, isDataChar c = true) (hd : ∀ c ∈ f, isDataChar c = true) :
    wsend (.awaiting s) f false = ([], .returned, s.wlen - s.pos + f.length + 1, .awaiting (s.feed f)) := by
  have ok1 := feed_ok ok f
  obtain ⟨ok1a, ok1b⟩ := ok1
  have hall : ∀ c ∈ (s.feed f).window.drop (s.feed f).pos, isDataChar c = true := by
    intro c hc
    have := ok.2
    have hl := ok.1
    simp only [WState.feed] at hc
    rw [List.drop_append_of_le_length (by omega), List.mem_append] at hc
    rcases hc with hc | hc
    · exact hp c hc
    · exact hd c hc
  have hs := scan_all (by rw [← ok1a]; exact ok1b) hall
  have hc : handleCdata (s.feed f).pos (s.feed f).window isDataChar '<' =
      (.none (s.feed f).window.length, (s.feed f).window.length - (s.feed f).pos + 1) := by
    rw [handleCdata, cdataLoop]
    simp only [hs, Nat.lt_irrefl, dif_neg, not_false_eq_true]
    rw [scanReads_eq, hs]
  have hw : wstep false (s.feed f) = (.pause (s.feed f) [], s.wlen - s.pos + f.length + 1) := by
    have : (s.feed f).st = .inElement := hst
    simp only [wstep, this, wInElement, hc, wwait]
    have := ok.2
    simp only [Bool.false_eq_true, if_false, ← ok1a]
    have hw1 : (s.feed f).wlen = s.wlen + f.length := rfl
    have hw2 : (s.feed f).pos = s.pos := rfl
    rw [hw1, hw2]
    congr 1
    omega
  rw [wsend_awaiting false hf, wrun.eq_def]
  simp only [hw, Bool.false_eq_true, if_false]

/-- C155: a text of `n` characters passed one by one. -/
theorem wsends_ones (n : Nat) {s : WState} (ok : s.Ok) (hst : s.st = .inElement) (hp : ∀ c ∈ s.window.drop s.pos, isDataChar c = true) :
    2 * totalReads (wsends (.awaiting s) (List.replicate n (['x'], false))).1 = 2 * n * (s.wlen - s.pos) + n * n + 3 * n ∧
      ∀ r ∈ (wsends (.awaiting s) (List.replicate n (['x'], false))).1, r.2.1 = .returned := by
  induction n generalizing s with
  | zero => simp [wsends, totalReads]
  | succ n ih =>
    have hx : ∀ c ∈ (['x'] : Str), isDataChar c = true := by
      intro c hc; simp only [List.mem_singleton] at hc; subst hc; decide +kernel
    have h1 := wsend_more_text ok hst (f := ['x']) (by simp) hp hx
    have hp' : ∀ c ∈ (s.feed ['x']).window.drop (s.feed ['x']).pos, isDataChar c = true := by
      intro c hc
      have := ok.2
      have hl := ok.1
      simp only [WState.feed] at hc
      rw [List.drop_append_of_le_length (by omega), List.mem_append] at hc
      rcases hc with hc | hc
      · exact hp c hc
      · exact hx c hc
    have ih := ih (s := s.feed ['x']) (feed_ok ok _) hst hp'
    simp only [List.replicate_succ, wsends, h1]
    rw [totalReads_cons]
    have hl : (s.feed ['x']).wlen - (s.feed ['x']).pos = s.wlen - s.pos + 1 := by
      have := ok.2; simp only [WState.feed, List.length_singleton]; omega
    rw [hl] at ih
    refine ⟨?_, ?_⟩
    · have := ih.1
      simp only [List.length_singleton]
      generalize s.wlen - s.pos = u at *
      generalize totalReads _ = T at *
      rw [Nat.mul_add, this]
      have e1 : 2 * n * (u + 1) = 2 * n * u + 2 * n := by rw [Nat.mul_add, Nat.mul_one]
      have e2 : 2 * (n + 1) * u = 2 * n * u + 2 * u := by rw [Nat.mul_add, Nat.add_mul]
      have e3 : (n + 1) * (n + 1) = n * n + 2 * n + 1 := by rw [Nat.add_mul, Nat.mul_add]; omega
      rw [e1, e2, e3]
      omega
    · intro r hr
      rw [List.mem_cons] at hr
      rcases hr with rfl | hr
      · rfl
      · exact ih.2 r hr

/-- The start tag `<a>` has been read. -/
theorem after_start_tag : ∃ s : WState, (wsend wnew "<a>".toList false).2.2.2 = .awaiting s ∧ (wsend wnew "<a>".toList false).2.1 = .returned ∧
    s.Ok ∧ s.st = .inElement ∧ s.window.drop s.pos = [] := by
  obtain ⟨_, h2, h3, h4⟩ := wsend_unread false (p := wnew) ⟨rfl, Nat.le_refl _⟩ "<a>".toList
  have e : send wnew.unread "<a>".toList false =
      ([.start "a".toList [] []], .returned, .awaiting ⟨.inElement, [], false, "a".toList, [], ["a".toList]⟩) := by decide +kernel
  rw [e] at h2 h3
  cases hs : (wsend wnew "<a>".toList false).2.2.2 with
  | awaiting s =>
    rw [hs] at h3 h4
    simp only [WSession.unread, Session.awaiting.injEq] at h3
    refine ⟨s, rfl, h2, h4, ?_, ?_⟩
    · have := congrArg PState.st h3; exact this
    · have := congrArg PState.rest h3; exact this
  | finished s => rw [hs] at h3; simp [WSession.unread] at h3
  | dead => rw [hs] at h3; simp [WSession.unread] at h3
  | hung s => rw [hs] at h3; simp [WSession.unread] at h3

/-- C155 (the claim that the work is proportional to the text is false).  For no factor is the number of reads at most that many for each
character and each call: a text passed character by character is read from its beginning at every call. -/
theorem C155_work_is_not_proportional (K : Nat) : ∃ fs : List Str,
    (∀ r ∈ (wsends wnew (fs.map (·, false))).1, r.2.1 = .returned) ∧
      K * (fs.flatten.length + fs.length) < totalReads (wsends wnew (fs.map (·, false))).1 := by
  obtain ⟨s, hs, hret, ok, hst, hd⟩ := after_start_tag
  let n := 6 * K + 6
  have h1 := wsends_ones n ok hst (by rw [hd]; simp)
  refine ⟨"<a>".toList :: List.replicate n ['x'], ?_, ?_⟩
  · simp only [List.map_cons, wsends, hs, List.map_replicate]
    intro r hr
    rw [List.mem_cons] at hr
    rcases hr with rfl | hr
    · exact hret
    · exact h1.2 r hr
  · simp only [List.map_cons, wsends, hs, List.map_replicate]
    rw [totalReads_cons]
    have hl : ("<a>".toList :: List.replicate n ['x']).flatten.length + ("<a>".toList :: List.replicate n ['x']).length = 2 * n + 4 := by
      have hflat : ∀ m, (List.replicate m (['x'] : Str)).flatten.length = m := by
        intro m; simp
      rw [List.flatten_cons, List.length_append, hflat]
      have : ("<a>".toList).length = 3 := by decide
      simp only [this, List.length_cons, List.length_replicate]; omega
    rw [hl]
    have h2 := h1.1
    have h3 : K * (2 * n + 4) * 2 < n * n := by
      have : n = 6 * K + 6 := rfl
      rw [this]
      have e1 : K * (2 * (6 * K + 6) + 4) * 2 = 24 * (K * K) + 32 * K := by
        rw [show K * (2 * (6 * K + 6) + 4) * 2 = 24 * (K * K) + 32 * K by
          simp only [Nat.mul_add, Nat.add_mul]
          rw [show K * (2 * (6 * K)) = 12 * (K * K) by rw [← Nat.mul_assoc 2 6 K, Nat.mul_left_comm]]
          omega]
      have e2 : (6 * K + 6) * (6 * K + 6) = 36 * (K * K) + 72 * K + 36 := by
        simp only [Nat.mul_add, Nat.add_mul]
        rw [show 6 * K * (6 * K) = 36 * (K * K) by rw [Nat.mul_mul_mul_comm]]
        omega
      rw [e1, e2]; omega
    omega

end Amara
