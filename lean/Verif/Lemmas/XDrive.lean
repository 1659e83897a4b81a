import Verif.Lemmas.XLocal
/-
Soundness and termination of the driver.
-/
namespace Amara.X

variable {F : Type}

theorem local1 {p : Nat} {A : NonTerm} {X : Sym} (h : prods[p]? = some (A, [X])) (h0 : p ≠ 0) : Local1 F p A X := by
  match p, h, h0 with
  | 11, h, _ => cases h; exact loc11
  | 16, h, _ => cases h; exact loc16
  | 17, h, _ => cases h; exact loc17
  | 18, h, _ => cases h; exact loc18
  | 19, h, _ => cases h; exact loc19
  | 20, h, _ => cases h; exact loc20
  | 21, h, _ => cases h; exact loc21
  | 22, h, _ => cases h; exact loc22
  | 23, h, _ => cases h; exact loc23
  | 24, h, _ => cases h; exact loc24
  | 27, h, _ => cases h; exact loc27
  | 31, h, _ => cases h; exact loc31
  | 32, h, _ => cases h; exact loc32
  | 33, h, _ => cases h; exact loc33
  | 35, h, _ => cases h; exact loc35
  | 36, h, _ => cases h; exact loc36
  | 37, h, _ => cases h; exact loc37
  | 38, h, _ => cases h; exact loc38
  | 39, h, _ => cases h; exact loc_name (c := .name) (by decide)
  | 40, h, _ => cases h; exact loc_name (c := .logical) (by decide)
  | 41, h, _ => cases h; exact loc_name (c := .divmod) (by decide)
  | 43, h, _ => cases h; exact loc43
  | 49, h, _ => cases h; exact loc49
  | 50, h, _ => cases h; exact loc50
  | 56, h, _ => cases h; exact loc56
  | 0, _, h0 => exact absurd rfl h0
  | 1, h, _ | 2, h, _ | 3, h, _ | 4, h, _ | 5, h, _ | 6, h, _ | 7, h, _ | 8, h, _ | 9, h, _ | 10, h, _ | 12, h, _ | 13, h, _
  | 14, h, _ | 15, h, _ | 25, h, _ | 26, h, _ | 28, h, _ | 29, h, _ | 30, h, _ | 34, h, _ | 42, h, _ | 44, h, _ | 45, h, _
  | 46, h, _ | 47, h, _ | 48, h, _ | 51, h, _ | 52, h, _ | 53, h, _ | 54, h, _ | 55, h, _ | 57, h, _ => cases h
  | n + 58, h, _ => cases h

theorem local2 {p : Nat} {A : NonTerm} {X Y : Sym} (h : prods[p]? = some (A, [X, Y])) : Local2 F p A X Y := by
  match p, h with
  | 8, h => cases h; exact loc8
  | 9, h => cases h; exact loc9
  | 25, h => cases h; exact loc25
  | 26, h => cases h; exact loc26
  | 30, h => cases h; exact loc30
  | 34, h => cases h; exact loc34
  | 42, h => cases h; exact loc42
  | 44, h => cases h; exact loc44
  | 46, h => cases h; exact loc_var (c := .name) (by decide)
  | 47, h => cases h; exact loc_var (c := .logical) (by decide)
  | 48, h => cases h; exact loc_var (c := .divmod) (by decide)
  | 51, h => cases h; exact loc_call (c := .name) (by decide)
  | 52, h => cases h; exact loc_call (c := .logical) (by decide)
  | 53, h => cases h; exact loc_call (c := .divmod) (by decide)
  | 54, h => cases h; exact loc54
  | 0, h | 1, h | 2, h | 3, h | 4, h | 5, h | 6, h | 7, h | 10, h | 11, h | 12, h | 13, h | 14, h | 15, h | 16, h | 17, h
  | 18, h | 19, h | 20, h | 21, h | 22, h | 23, h | 24, h | 27, h | 28, h | 29, h | 31, h | 32, h | 33, h | 35, h | 36, h
  | 37, h | 38, h | 39, h | 40, h | 41, h | 43, h | 45, h | 49, h | 50, h | 55, h | 56, h | 57, h => cases h
  | n + 58, h => cases h

theorem local3 {p : Nat} {A : NonTerm} {X Y Z : Sym} (h : prods[p]? = some (A, [X, Y, Z])) : Local3 F p A X Y Z := by
  match p, h with
  | 1, h => cases h; exact loc_bin (c := .logical) (by decide)
  | 2, h => cases h; exact loc_bin (c := .equal) (by decide)
  | 3, h => cases h; exact loc_bin (c := .rel) (by decide)
  | 4, h => cases h; exact loc_bin (c := .plus) (by decide)
  | 5, h => cases h; exact loc_bin (c := .minus) (by decide)
  | 6, h => cases h; exact loc_bin (c := .mult) (by decide)
  | 7, h => cases h; exact loc_bin (c := .divmod) (by decide)
  | 13, h => cases h; exact loc_bin (c := .union) (by decide)
  | 10, h => cases h; exact loc10
  | 12, h => cases h; exact loc12
  | 14, h => cases h; exact loc14
  | 15, h => cases h; exact loc15
  | 28, h => cases h; exact loc28
  | 29, h => cases h; exact loc29
  | 45, h => cases h; exact loc45
  | 55, h => cases h; exact loc55
  | 57, h => cases h; exact loc57
  | 0, h | 8, h | 9, h | 11, h | 16, h | 17, h | 18, h | 19, h | 20, h | 21, h | 22, h | 23, h | 24, h | 25, h | 26, h | 27, h
  | 30, h | 31, h | 32, h | 33, h | 34, h | 35, h | 36, h | 37, h | 38, h | 39, h | 40, h | 41, h | 42, h | 43, h | 44, h
  | 46, h | 47, h | 48, h | 49, h | 50, h | 51, h | 52, h | 53, h | 54, h | 56, h => cases h
  | n + 58, h => cases h

/-- The weight of a symbol: the right side of a production weighs more than the left side. -/
def wt : Sym → Nat
  | .t _ => 30
  | .n .nameTest | .n .funCall | .n .axisSpec | .n .pred | .n .formalArgs => 29
  | .n .nodeTest | .n .predList => 28
  | .n .step => 27
  | .n .relPath | .n .absPath | .n .abbrevAbsPath | .n .predicated | .n .varRef | .n .number => 26
  | .n .expr => 25
  | .n .exprList | .n .argList => 24

def weight : List (Nat × Val F) → Nat
  | [] => 0
  | (s, _) :: st => wt (symOf s) + weight st

theorem wt_red' : ∀ p ∈ List.range 57, ∀ r ∈ prods[p + 1]?, wt (.n r.1) < (r.2.map wt).sum := by decide +kernel

theorem wt_red {p : Nat} {A : NonTerm} {rhs : List Sym} (h : prods[p]? = some (A, rhs)) (h0 : p ≠ 0) :
    wt (.n A) < (rhs.map wt).sum := by
  obtain ⟨q, rfl⟩ : ∃ q, p = q + 1 := ⟨p - 1, by omega⟩
  refine wt_red' q ?_ (A, rhs) h
  have : q + 1 < prods.length := by
    apply Decidable.byContradiction
    intro hn
    rw [List.getElem?_eq_none (by omega)] at h
    cases h
  have hl : prods.length = 58 := by decide
  rw [List.mem_range]
  omega

theorem Inv.top {st : List (Nat × Val F)} {w : List (Tok F)} {g : Nat × Last} (h : Inv st w g) {X : Sym}
    (hs : symOf (topState st) = X) (hX : X ≠ .t .eof) :
    ∃ v st₀ w₀ u g₀, st = (next (topState st₀) X, v) :: st₀ ∧ w = w₀ ++ u ∧ Inv st₀ w₀ g₀ ∧ next (topState st₀) X ≠ 0 ∧
      Follows g₀ X ∧ Good (topState st₀) X v u g := by
  cases h with
  | nil => exact absurd (hs.symm.trans state1.2.2.2) hX
  | cons h hn hf hg =>
    have := (next_sym hn).1
    rw [topState, this] at hs
    subst hs
    exact ⟨_, _, _, _, _, rfl, rfl, h, hn, hf, hg⟩

theorem rhs_eof : ∀ r ∈ prods, Sym.t .eof ∉ r.2 := by decide +kernel

theorem red_inv {st : List (Nat × Val F)} {w inp : List (Tok F)} {g : Nat × Last} {p : Nat} {a : Term} (h : Inv st w g)
    (ha : action (topState st) a = .reduce p) (hf : FolG g a) :
    reduceBy p st inp = .fail .runtime ∨
    ∃ st' g', reduceBy p st inp = .next st' inp ∧ Inv st' w g' ∧ FolG g' a ∧ weight st' < weight st := by
  obtain ⟨h0, hok⟩ := red_ok ha
  rw [redOK] at hok
  cases hp : prods[p]? with
  | none => rw [hp] at hok; cases hok
  | some r =>
    obtain ⟨A, rhs⟩ := r
    have hmem := rhs_eof _ (List.mem_of_getElem? hp)
    have hwt := wt_red hp h0
    rw [hp] at hok
    match rhs with
    | [] | _ :: _ :: _ :: _ :: _ => cases hok
    | [X] =>
      simp only [Bool.and_eq_true, beq_iff_eq, List.all_eq_true, bne_iff_ne] at hok
      simp only [List.mem_cons, List.not_mem_nil, or_false] at hmem
      obtain ⟨v, st₀, w₀, u, g₀, rfl, rfl, hi, hn, hfo, hg⟩ := h.top hok.1 (fun e => hmem e.symm)
      have hgo : goto (topState st₀) A ≠ 0 := hok.2 _ (next_sym hn).2.1
      rcases local1 hp h0 _ _ _ _ _ _ hgo hn ha hf hg hfo with he | ⟨v', g', he, hg', hf', hfo'⟩
      · left
        unfold reduceBy
        rw [hp]
        simp [he]
      · refine .inr ⟨(goto (topState st₀) A, v') :: st₀, g', ?_, Inv.cons hi (X := .n A) hgo hfo' hg', hf', ?_⟩
        · unfold reduceBy
          rw [hp]
          simp [he]
        · simp only [weight, (next_sym hn).1, (sym_n' _ (goto_lt hgo) A (mem_nonTerms A) hgo).1]
          simp at hwt
          omega
    | [X, Y] =>
      simp only [Bool.and_eq_true, beq_iff_eq, List.all_eq_true, bne_iff_ne] at hok
      simp only [List.mem_cons, List.not_mem_nil, or_false, not_or] at hmem
      obtain ⟨y, st₁, w₁, u', g₁, rfl, rfl, hi, hn, hfo, hg⟩ := h.top hok.1 (fun e => hmem.2 e.symm)
      have hok1 := hok.2 _ (next_sym hn).2.1
      obtain ⟨x, st₀, w₀, u, g₀, rfl, rfl, hi', hn', hfo', hg'⟩ := hi.top hok1.1 (fun e => hmem.1 e.symm)
      have hgo : goto (topState st₀) A ≠ 0 := hok1.2 _ (next_sym hn').2.1
      rcases local2 hp _ _ _ _ _ _ _ _ _ hgo hn' hn ha hf hg' hg hfo' hfo with he | ⟨v', g', he, hg'', hf', hfo''⟩
      · left
        unfold reduceBy
        rw [hp]
        simp [he]
      · refine .inr ⟨(goto (topState st₀) A, v') :: st₀, g', ?_, ?_, hf', ?_⟩
        · unfold reduceBy
          rw [hp]
          simp [he]
        · rw [List.append_assoc]
          exact Inv.cons hi' (X := .n A) hgo hfo'' hg''
        · simp only [weight, (next_sym hn).1, (next_sym hn').1, (sym_n' _ (goto_lt hgo) A (mem_nonTerms A) hgo).1]
          simp at hwt
          omega
    | [X, Y, Z] =>
      simp only [Bool.and_eq_true, beq_iff_eq, List.all_eq_true, bne_iff_ne] at hok
      simp only [List.mem_cons, List.not_mem_nil, or_false, not_or] at hmem
      obtain ⟨z, st₂, w₂, u'', g₂, rfl, rfl, hi, hn, hfo, hg⟩ := h.top hok.1 (fun e => hmem.2.2 e.symm)
      have hok1 := hok.2 _ (next_sym hn).2.1
      obtain ⟨y, st₁, w₁, u', g₁, rfl, rfl, hi', hn', hfo', hg'⟩ := hi.top hok1.1 (fun e => hmem.2.1 e.symm)
      have hok2 := hok1.2 _ (next_sym hn').2.1
      obtain ⟨x, st₀, w₀, u, g₀, rfl, rfl, hi'', hn'', hfo'', hg''⟩ := hi'.top hok2.1 (fun e => hmem.1 e.symm)
      have hgo : goto (topState st₀) A ≠ 0 := hok2.2 _ (next_sym hn'').2.1
      rcases local3 hp _ _ _ _ _ _ _ _ _ _ _ _ hgo hn'' hn' hn ha hf hg'' hg' hg hfo'' hfo' hfo with he | ⟨v', g', he, hG, hf', hF⟩
      · left
        unfold reduceBy
        rw [hp]
        simp [he]
      · refine .inr ⟨(goto (topState st₀) A, v') :: st₀, g', ?_, ?_, hf', ?_⟩
        · unfold reduceBy
          rw [hp]
          simp [he]
        · rw [List.append_assoc, List.append_assoc, ← List.append_assoc u]
          exact Inv.cons hi'' (X := .n A) hgo hF hG
        · simp only [weight, (next_sym hn).1, (next_sym hn').1, (next_sym hn'').1,
            (sym_n' _ (goto_lt hgo) A (mem_nonTerms A) hgo).1]
          simp at hwt
          omega

theorem kind_eof (t : Tok F) : t.kind ≠ .eof := by cases t <;> simp [Tok.kind]

theorem Inv.state {st : List (Nat × Val F)} {w : List (Tok F)} {g : Nat × Last} (h : Inv st w g) :
    topState st = 0 → st = [] := by
  cases h with
  | nil => exact fun _ => rfl
  | cons _ hn _ _ => exact fun h => absurd h hn

/-- One round of the driver from a stack that stands for what has been read. -/
theorem step_inv {bad : Bool} {st : List (Nat × Val F)} {w inp : List (Tok F)} {g : Nat × Last} (h : Inv st w g)
    (hf : ∀ a, lookahead bad inp = some a → FolG g a) :
    (∃ st' w' inp' g', pstep bad st inp = .next st' inp' ∧ Inv st' w' g' ∧ (∀ a, lookahead bad inp' = some a → FolG g' a) ∧
      w' ++ inp' = w ++ inp ∧ 40 * inp'.length + weight st' < 40 * inp.length + weight st ∧
      (inp' = inp ∨ g' = free ∧ ∃ t, inp = t :: inp')) ∨
    (∃ e, pstep bad st inp = .done e ∧ inp = [] ∧ bad = false ∧ Denotes w e) ∨
    (pstep bad st inp = .fail .type ∧ inp = [] ∧ bad = true) ∨
    pstep bad st inp = .fail .runtime := by
  cases hl : lookahead bad inp with
  | none =>
    refine .inr (.inr (.inl ?_))
    cases inp with
    | nil =>
      cases bad with
      | true => exact ⟨rfl, rfl, rfl⟩
      | false => cases hl
    | cons t r => cases hl
  | some a =>
    have hfa := hf a hl
    unfold pstep
    rw [hl]
    cases ha : action (topState st) a with
    | error => exact .inr (.inr (.inr (by simp only [ha])))
    | reduce p =>
      rcases red_inv (inp := inp) h ha hfa with hr | ⟨st', g', hr, hi, hf', hw⟩
      · exact .inr (.inr (.inr (by simp only [ha, hr])))
      · refine .inl ⟨st', w, inp, g', by simp only [ha, hr], hi, fun b hb => ?_, rfl, by omega, .inl rfl⟩
        rw [hl] at hb
        cases hb
        exact hf'
    | shift s =>
      have hok := action_ok (t := topState st) (a := a)
      rw [actOK, ha] at hok
      simp only [Bool.and_eq_true, bne_iff_ne] at hok
      cases inp with
      | nil =>
        cases bad with
        | true => cases hl
        | false => cases hl; exact absurd rfl hok.2
      | cons t r =>
        have hk : t.kind = a := by cases hl; rfl
        have hsh : next (topState st) (.t a) = s := by simp only [next, sh, ha]
        refine .inl ⟨(s, .tok t) :: st, w ++ [t], r, free, by simp only [ha], ?_, fun b _ => fol_free b, by simp, ?_, .inr ⟨rfl, t, rfl⟩⟩
        · have := Inv.cons h (X := .t a) (v := .tok t) (u := [t]) (g := free) (by rw [hsh]; exact hok.1) hfa
            ⟨t, rfl, rfl, hk, rfl⟩
          rwa [hsh] at this
        · have : symOf s = .t a := by rw [← hsh]; exact (next_sym (by rw [hsh]; exact hok.1)).1
          simp only [weight, this, wt, List.length_cons]
          omega
    | accept =>
      have hok := action_ok (t := topState st) (a := a)
      rw [actOK, ha] at hok
      simp only [Bool.and_eq_true, beq_iff_eq] at hok
      obtain ⟨h1, rfl⟩ := hok
      obtain ⟨v, st₀, w₀, u, g₀, rfl, rfl, hi, hn, hfo, hg⟩ := h.top (X := .n .expr) (by rw [h1]; exact state1.1) (by simp)
      have hp := (next_sym hn).2.1
      rw [show next (topState st₀) (.n .expr) = 1 from h1, state1.2.1] at hp
      have hst : st₀ = [] := hi.state (by simpa using hp)
      subst hst
      cases hi
      obtain ⟨e, l, rfl, d, -⟩ := hg
      refine .inr (.inl ⟨e, by simp only [ha], ?_⟩)
      cases inp with
      | cons t r => exact absurd (Option.some.inj hl) (kind_eof t)
      | nil =>
        cases bad with
        | true => cases hl
        | false => exact ⟨rfl, rfl, _, _, _, d⟩

/-- What the driver returns. -/
theorem drive_inv {bad : Bool} : ∀ (n : Nat) {st : List (Nat × Val F)} {w inp : List (Tok F)} {g : Nat × Last},
    Inv st w g → (∀ a, lookahead bad inp = some a → FolG g a) → 40 * inp.length + weight st < n →
    (∃ e, pdrive bad n st inp = some (.ok e) ∧ bad = false ∧ Denotes (w ++ inp) e) ∨
    (pdrive bad n st inp = some (.error .type) ∧ bad = true) ∨
    pdrive bad n st inp = some (.error .runtime)
  | 0, _, _, _, _, _, _, h => absurd h (Nat.not_lt_zero _)
  | n + 1, st, w, inp, g, hi, hf, hn => by
    rw [pdrive]
    rcases step_inv hi hf with ⟨st', w', inp', g', h, hi', hf', hw, hlt, -⟩ | ⟨e, h, rfl, hb, hd⟩ | ⟨h, rfl, hb⟩ | h
    · simp only [h]
      rw [← hw]
      exact drive_inv n hi' hf' (by omega)
    · simp only [h]
      rw [List.append_nil]
      exact .inl ⟨e, rfl, hb, hd⟩
    · simp only [h]
      exact .inr (.inl ⟨trivial, hb⟩)
    · simp only [h]
      exact .inr (.inr trivial)

/-- The driver stops within the rounds allowed. -/
theorem drive_start (bad : Bool) (ts : List (Tok F)) :
    (∃ e, pdrive bad (rounds ts) [] ts = some (.ok e) ∧ bad = false ∧ Denotes ts e) ∨
    (pdrive bad (rounds ts) [] ts = some (.error .type) ∧ bad = true) ∨
    pdrive bad (rounds ts) [] ts = some (.error .runtime) :=
  drive_inv (rounds ts) (w := []) (g := free) Inv.nil (fun a _ => fol_free a) (by simp [rounds, weight])

/-- More rounds change nothing. -/
theorem pdrive_mono {bad : Bool} {r : Except XErr (Expr F)} : ∀ (n m : Nat) (st : List (Nat × Val F)) (inp : List (Tok F)),
    pdrive bad n st inp = some r → pdrive bad (n + m) st inp = some r
  | 0, _, _, _, h => by cases h
  | n + 1, m, st, inp, h => by
    rw [Nat.add_right_comm, pdrive]
    rw [pdrive] at h
    cases hs : pstep bad st inp with
    | next st' inp' => simp only [hs] at h ⊢; exact pdrive_mono n m st' inp' h
    | done e => simp only [hs] at h ⊢; exact h
    | fail e => simp only [hs] at h ⊢; exact h

/-- What the grammar derives, the driver accepts. -/
theorem drive_complete {ts : List (Tok F)} {e : Expr F} (h : Denotes ts e) :
    pdrive false (rounds ts) [] ts = some (.ok e) := by
  obtain ⟨l, r, k, h⟩ := h
  have hl : Term.eof ∈ follow := by decide
  obtain ⟨n, hn⟩ := compl_expr h false [] [] (a := .eof) (by exact tab_accept.1)
    (by show lvl 0 < l; rw [tab_accept.2.1]; exact (gexpr_pos h).1) rfl hl ⟨Nat.zero_le _, by simp⟩
  have hn1 := hn 1
  rw [List.append_nil] at hn1
  have hd : pdrive false 1 [(goto (topState ([] : List (Nat × Val F))) .expr, Val.expr e)] [] = some (.ok e) := by
    have : pstep false [(goto 0 .expr, Val.expr e)] ([] : List (Tok F)) = .done e := by
      unfold pstep
      simp only [lookahead, topState, tab_accept.2.2, Bool.false_eq_true, if_false]
    rw [pdrive, show topState ([] : List (Nat × Val F)) = 0 from rfl, this]
  rw [hd] at hn1
  have h2 := pdrive_mono (n + 1) (rounds ts) _ _ hn1
  rcases drive_start false ts with ⟨e', h', -⟩ | ⟨-, h'⟩ | h'
  · have h3 := pdrive_mono (rounds ts) (n + 1) _ _ h'
    rw [Nat.add_comm, h2] at h3
    rw [h', h3]
  · cases h'
  · have h3 := pdrive_mono (rounds ts) (n + 1) _ _ h'
    rw [Nat.add_comm, h2] at h3
    cases h3

end Amara.X
