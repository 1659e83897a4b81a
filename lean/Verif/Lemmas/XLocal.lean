import Verif.Lemmas.XSound
/-
Soundness of the parser, one production at a time.
-/
namespace Amara.X

variable {F : Type}

theorem kind_name {t : Tok F} (h : t.kind ∈ names) : t.isName := by
  cases t <;> simp [Tok.kind, names] at h <;> trivial

theorem kind_strength {o : Tok F} (h : o.kind ∈ binOps) : o.strength = some o.kind.level := by
  cases o <;> simp [Tok.kind, binOps] at h <;> rfl

theorem kind_binary {o : Tok F} (h : o.kind ∈ binOps) (l r : Expr F) : ∃ e, meaning l o r = some e := by
  cases o with
  | logical b | divmod b | equal b => cases b <;> exact ⟨_, rfl⟩
  | rel | plus | minus | union => exact ⟨_, rfl⟩
  | _ => simp [Tok.kind, binOps] at h

theorem binary_name {o : Tok F} (hn : o.isName) (h : o.kind ∈ binOps) : o.kind = .logical ∨ o.kind = .divmod := by
  cases o <;> simp [Tok.kind, binOps, Tok.isName] at h hn ⊢


section
variable {t : Tok F}
theorem kind_lparen (h : t.kind = .lparen) : t = .lparen := by cases t <;> simp [Tok.kind] at h ⊢
theorem kind_rparen (h : t.kind = .rparen) : t = .rparen := by cases t <;> simp [Tok.kind] at h ⊢
theorem kind_lbrack (h : t.kind = .lbrack) : t = .lbrack := by cases t <;> simp [Tok.kind] at h ⊢
theorem kind_rbrack (h : t.kind = .rbrack) : t = .rbrack := by cases t <;> simp [Tok.kind] at h ⊢
theorem kind_comma (h : t.kind = .comma) : t = .comma := by cases t <;> simp [Tok.kind] at h ⊢
theorem kind_dollar (h : t.kind = .dollar) : t = .dollar := by cases t <;> simp [Tok.kind] at h ⊢
theorem kind_at (h : t.kind = .at) : t = .at := by cases t <;> simp [Tok.kind] at h ⊢
theorem kind_axisSep (h : t.kind = .axisSep) : t = .axisSep := by cases t <;> simp [Tok.kind] at h ⊢
theorem kind_dot (h : t.kind = .dot) : t = .dot := by cases t <;> simp [Tok.kind] at h ⊢
theorem kind_dotdot (h : t.kind = .dotdot) : t = .dotdot := by cases t <;> simp [Tok.kind] at h ⊢
theorem kind_star (h : t.kind = .star) : t = .star := by cases t <;> simp [Tok.kind] at h ⊢
theorem kind_minus (h : t.kind = .minus) : t = .minus := by cases t <;> simp [Tok.kind] at h ⊢
theorem kind_pathSep (h : t.kind = .pathSep) : t = .pathSep := by cases t <;> simp [Tok.kind] at h ⊢
theorem kind_abbrevSep (h : t.kind = .abbrevSep) : t = .abbrevSep := by cases t <;> simp [Tok.kind] at h ⊢
theorem kind_literal (h : t.kind = .literal) : ∃ s, t = .literal s := by cases t <;> simp [Tok.kind] at h ⊢
theorem kind_float (h : t.kind = .float) : ∃ s, t = .float s := by cases t <;> simp [Tok.kind] at h ⊢
theorem kind_integer (h : t.kind = .integer) : ∃ s, t = .integer s := by cases t <;> simp [Tok.kind] at h ⊢
theorem kind_nameTok (h : t.kind = .name) : ∃ s, t = .name s := by cases t <;> simp [Tok.kind] at h ⊢
end

theorem loc_bin {c : Term} (hc : c ∈ binOps) : Local3 F (binProd c) .expr (.n .expr) (.t c) (.n .expr) := by
  intro s v w x u u' u'' g g₂ g₁ g₀ a hA h1 h2 h3 ha hf G1 G2 G3 f0 f1 f2
  obtain ⟨e1, l1, rfl, d1, hl1⟩ := G1
  obtain ⟨o, rfl, rfl, hk, rfl⟩ := G2
  obtain ⟨e2, l2, rfl, d2, hl2⟩ := G3
  subst hk
  obtain ⟨hlv, hlv2⟩ := (state_facts s (goto_lt hA)).1 _ hc h2 h1
  obtain ⟨e, he⟩ := kind_binary hc e1 e2
  have hr := (reduce_fact ha).1 _ hc ha
  have hd := GExpr.binary d1 (kind_strength hc) d2 f1.1 (by rw [← hlv2]; exact hl2)
    (fun hn hroot => by
      have := f1.2.2.1 hroot
      rcases binary_name hn hc with h | h
      · exact this.1 h
      · exact this.2 h) he
  refine .inr ⟨.expr e, (min o.kind.level g.1, g.2), (act_binary (kind_strength hc) he).2,
    ⟨e, min o.kind.level l1, rfl, ?_, by omega⟩, ⟨?_, hf.2⟩, trivial⟩
  · rw [List.append_assoc]; exact hd
  · have := hf.1
    show a.level ≤ min o.kind.level g.1
    omega

theorem loc8 : Local2 F 8 .expr (.t .minus) (.n .expr) := by
  intro s v w u u' g g₁ g₀ a hA h1 h2 ha hf G1 G2 f0 f1
  obtain ⟨o, rfl, rfl, hk, rfl⟩ := G1
  obtain ⟨e, l, rfl, d, hl⟩ := G2
  obtain rfl := kind_minus hk
  have h7 : lvl (sh s .minus) = 7 := (state_facts s (goto_lt hA)).2.2.2.1 hA h1
  have hr := (reduce_fact ha).2.1 ha
  refine .inr ⟨.expr (.neg e), (min 7 g.1, g.2), rfl, ⟨_, 9, rfl, .neg d (by rw [show minusStrength = 7 from rfl, ← h7]; exact hl),
    lvl_lt s⟩, ⟨?_, hf.2⟩, trivial⟩
  have := hf.1
  show a.level ≤ min 7 g.1
  omega

theorem loc9 : Local2 F 9 .expr (.t .lparen) (.t .rparen) := by
  intro s v w u u' g g₁ g₀ a hA h1 h2 ha hf G1 G2 f0 f1
  obtain ⟨o, rfl, rfl, hk, rfl⟩ := G1
  obtain ⟨o', rfl, rfl, hk', rfl⟩ := G2
  obtain rfl := kind_lparen hk
  obtain rfl := kind_rparen hk'
  exact .inr ⟨_, free, rfl, ⟨_, 9, rfl, .prim .nil, lvl_lt s⟩, fol_free a, trivial⟩

theorem loc10 : Local3 F 10 .expr (.t .lparen) (.n .exprList) (.t .rparen) := by
  intro s v w x u u' u'' g g₂ g₁ g₀ a hA h1 h2 h3 ha hf G1 G2 G3 f0 f1 f2
  obtain ⟨o, rfl, rfl, hk, rfl⟩ := G1
  obtain ⟨es, rfl, d, rfl⟩ := G2
  obtain ⟨o', rfl, rfl, hk', rfl⟩ := G3
  obtain rfl := kind_lparen hk
  obtain rfl := kind_rparen hk'
  exact .inr ⟨_, free, rfl, ⟨_, 9, rfl, .prim (.seq d), lvl_lt s⟩, fol_free a, trivial⟩

theorem loc11 : Local1 F 11 .exprList (.n .expr) := by
  intro s v u g g₀ a hA h1 ha hf G1 f0
  obtain ⟨e, l, rfl, d, hl⟩ := G1
  exact .inr ⟨_, free, rfl, ⟨_, rfl, .one d, rfl⟩, fol_free a, trivial⟩

theorem loc56 : Local1 F 56 .argList (.n .expr) := by
  intro s v u g g₀ a hA h1 ha hf G1 f0
  obtain ⟨e, l, rfl, d, hl⟩ := G1
  exact .inr ⟨_, free, rfl, ⟨_, rfl, .one d, rfl⟩, fol_free a, trivial⟩

theorem loc12 : Local3 F 12 .exprList (.n .exprList) (.t .comma) (.n .expr) := by
  intro s v w x u u' u'' g g₂ g₁ g₀ a hA h1 h2 h3 ha hf G1 G2 G3 f0 f1 f2
  obtain ⟨es, rfl, d, rfl⟩ := G1
  obtain ⟨o, rfl, rfl, hk, rfl⟩ := G2
  obtain ⟨e, l, rfl, d', hl⟩ := G3
  obtain rfl := kind_comma hk
  refine .inr ⟨_, free, rfl, ⟨_, rfl, ?_, rfl⟩, fol_free a, trivial⟩
  rw [List.append_assoc]
  exact .more d d'

theorem loc57 : Local3 F 57 .argList (.n .argList) (.t .comma) (.n .expr) := by
  intro s v w x u u' u'' g g₂ g₁ g₀ a hA h1 h2 h3 ha hf G1 G2 G3 f0 f1 f2
  obtain ⟨es, rfl, d, rfl⟩ := G1
  obtain ⟨o, rfl, rfl, hk, rfl⟩ := G2
  obtain ⟨e, l, rfl, d', hl⟩ := G3
  obtain rfl := kind_comma hk
  refine .inr ⟨_, free, rfl, ⟨_, rfl, ?_, rfl⟩, fol_free a, trivial⟩
  rw [List.append_assoc]
  exact .more d d'

theorem fol_path {a : Term} (h : a ≠ .pathSep ∧ a ≠ .abbrevSep) : FolG (9, .path) a :=
  ⟨Nat.le_succ_of_le (level_le a), fun _ => h, by simp, by simp⟩

theorem rel_true {s : Nat} {u : List (Tok F)} {e : Expr F} (h : GRel (decide (goto s .expr = 0)) u e)
    (hs : goto s .expr = 0) : GRel true u e := by rwa [decide_eq_true hs] at h

theorem step_true {s : Nat} {u : List (Tok F)} {e : Expr F} (h : GStep (decide (goto s .expr = 0)) u e)
    (hs : goto s .expr = 0) : GStep true u e := by rwa [decide_eq_true hs] at h

theorem loc14 : Local3 F 14 .expr (.n .expr) (.t .pathSep) (.n .relPath) := by
  intro s v w x u u' u'' g g₂ g₁ g₀ a hA h1 h2 h3 ha hf G1 G2 G3 f0 f1 f2
  obtain ⟨e1, l1, rfl, d1, hl1⟩ := G1
  obtain ⟨o, rfl, rfl, hk, rfl⟩ := G2
  obtain ⟨e2, rfl, d2, rfl⟩ := G3
  obtain rfl := kind_pathSep hk
  have h0 : lvl s = 0 := (state_facts s (goto_lt hA)).2.1 .pathSep (by simp) h2 h1
  have d2' := rel_true d2 ((state_facts _ (next_lt h2)).2.2.2.2.1 .pathSep (by simp) h2)
  refine .inr ⟨_, (9, .path), rfl, ⟨_, 1, rfl, ?_, by omega⟩, fol_path ((reduce_fact ha).2.2.1 _ (by simp) ha), trivial⟩
  rw [List.append_assoc]
  exact .slash d1 (fun hp => (f1.2.1 hp).1 rfl) d2'

theorem loc15 : Local3 F 15 .expr (.n .expr) (.t .abbrevSep) (.n .relPath) := by
  intro s v w x u u' u'' g g₂ g₁ g₀ a hA h1 h2 h3 ha hf G1 G2 G3 f0 f1 f2
  obtain ⟨e1, l1, rfl, d1, hl1⟩ := G1
  obtain ⟨o, rfl, rfl, hk, rfl⟩ := G2
  obtain ⟨e2, rfl, d2, rfl⟩ := G3
  obtain rfl := kind_abbrevSep hk
  have h0 : lvl s = 0 := (state_facts s (goto_lt hA)).2.1 .abbrevSep (by simp) h2 h1
  have d2' := rel_true d2 ((state_facts _ (next_lt h2)).2.2.2.2.1 .abbrevSep (by simp) h2)
  refine .inr ⟨_, (9, .path), rfl, ⟨_, 1, rfl, ?_, by omega⟩, fol_path ((reduce_fact ha).2.2.1 _ (by simp) ha), trivial⟩
  rw [List.append_assoc]
  exact .dslash d1 (fun hp => (f1.2.1 hp).2 rfl) d2'

theorem loc16 : Local1 F 16 .expr (.n .relPath) := by
  intro s v u g g₀ a hA h1 ha hf G1 f0
  obtain ⟨e, rfl, d, rfl⟩ := G1
  rw [decide_eq_false hA] at d
  exact .inr ⟨_, (9, .path), rfl, ⟨_, 9, rfl, .prim (.rel d), lvl_lt s⟩,
    fol_path ((reduce_fact ha).2.2.1 _ (by simp) ha), trivial⟩

theorem loc17 : Local1 F 17 .expr (.n .absPath) := by
  intro s v u g g₀ a hA h1 ha hf G1 f0
  obtain ⟨e, rfl, d, hg⟩ := G1
  exact .inr ⟨_, g, rfl, ⟨_, 9, rfl, by rw [hg]; exact .prim d, lvl_lt s⟩, hf, trivial⟩

theorem loc18 : Local1 F 18 .expr (.n .abbrevAbsPath) := by
  intro s v u g g₀ a hA h1 ha hf G1 f0
  obtain ⟨e, rfl, d, hg⟩ := G1
  exact .inr ⟨_, g, rfl, ⟨_, 9, rfl, by rw [hg]; exact .prim d, lvl_lt s⟩, hf, trivial⟩

theorem loc19 : Local1 F 19 .expr (.n .predicated) := by
  intro s v u g g₀ a hA h1 ha hf G1 f0
  obtain ⟨e, rfl, d, hg⟩ := G1
  exact .inr ⟨_, g, rfl, ⟨_, 1, rfl, d, by omega⟩, hf, trivial⟩

theorem loc20 : Local1 F 20 .expr (.n .funCall) := by
  intro s v u g g₀ a hA h1 ha hf G1 f0
  obtain ⟨n, w, as, rfl, rfl, hn, d, rfl⟩ := G1
  exact .inr ⟨_, free, rfl, ⟨_, 9, rfl, .prim (.call hn d), lvl_lt s⟩, fol_free a, trivial⟩

theorem loc21 : Local1 F 21 .expr (.n .varRef) := by
  intro s v u g g₀ a hA h1 ha hf G1 f0
  obtain ⟨e, rfl, d, rfl⟩ := G1
  exact .inr ⟨_, free, rfl, ⟨_, 9, rfl, .prim d, lvl_lt s⟩, fol_free a, trivial⟩

theorem loc22 : Local1 F 22 .expr (.t .literal) := by
  intro s v u g g₀ a hA h1 ha hf G1 f0
  obtain ⟨o, rfl, rfl, hk, rfl⟩ := G1
  obtain ⟨x, rfl⟩ := kind_literal hk
  exact .inr ⟨_, free, rfl, ⟨_, 9, rfl, .prim .literal, lvl_lt s⟩, fol_free a, trivial⟩

theorem loc23 : Local1 F 23 .expr (.n .number) := by
  intro s v u g g₀ a hA h1 ha hf G1 f0
  obtain ⟨e, rfl, d, rfl⟩ := G1
  exact .inr ⟨_, free, rfl, ⟨_, 9, rfl, .prim d, lvl_lt s⟩, fol_free a, trivial⟩

theorem loc24 : Local1 F 24 .absPath (.t .pathSep) := by
  intro s v u g g₀ a hA h1 ha hf G1 f0
  obtain ⟨o, rfl, rfl, hk, rfl⟩ := G1
  obtain rfl := kind_pathSep hk
  have hr := (reduce_fact ha).2.2.2.1 ha
  exact .inr ⟨_, (9, .root), rfl, ⟨_, rfl, .root, rfl⟩, ⟨Nat.le_succ_of_le (level_le a), by simp, fun _ => hr, by simp⟩,
    trivial⟩

theorem loc25 : Local2 F 25 .absPath (.t .pathSep) (.n .relPath) := by
  intro s v w u u' g g₁ g₀ a hA h1 h2 ha hf G1 G2 f0 f1
  obtain ⟨o, rfl, rfl, hk, rfl⟩ := G1
  obtain ⟨e, rfl, d, rfl⟩ := G2
  obtain rfl := kind_pathSep hk
  have d' := rel_true d ((state_facts _ (next_lt h1)).2.2.2.2.1 .pathSep (by simp) h1)
  exact .inr ⟨_, (9, .path), rfl, ⟨_, rfl, .abs d', rfl⟩, fol_path ((reduce_fact ha).2.2.1 _ (by simp) ha), trivial⟩

theorem loc26 : Local2 F 26 .abbrevAbsPath (.t .abbrevSep) (.n .relPath) := by
  intro s v w u u' g g₁ g₀ a hA h1 h2 ha hf G1 G2 f0 f1
  obtain ⟨o, rfl, rfl, hk, rfl⟩ := G1
  obtain ⟨e, rfl, d, rfl⟩ := G2
  obtain rfl := kind_abbrevSep hk
  have d' := rel_true d ((state_facts _ (next_lt h1)).2.2.2.2.1 .abbrevSep (by simp) h1)
  exact .inr ⟨_, (9, .path), rfl, ⟨_, rfl, .absAll d', rfl⟩, fol_path ((reduce_fact ha).2.2.1 _ (by simp) ha), trivial⟩

theorem loc27 : Local1 F 27 .relPath (.n .step) := by
  intro s v u g g₀ a hA h1 ha hf G1 f0
  obtain ⟨e, rfl, d, rfl⟩ := G1
  exact .inr ⟨_, free, rfl, ⟨_, rfl, .step d, rfl⟩, fol_free a, trivial⟩

theorem loc28 : Local3 F 28 .relPath (.n .relPath) (.t .pathSep) (.n .step) := by
  intro s v w x u u' u'' g g₂ g₁ g₀ a hA h1 h2 h3 ha hf G1 G2 G3 f0 f1 f2
  obtain ⟨e1, rfl, d1, rfl⟩ := G1
  obtain ⟨o, rfl, rfl, hk, rfl⟩ := G2
  obtain ⟨e2, rfl, d2, rfl⟩ := G3
  obtain rfl := kind_pathSep hk
  have d2' := step_true d2 ((state_facts _ (next_lt h2)).2.2.2.2.1 .pathSep (by simp) h2)
  refine .inr ⟨_, free, rfl, ⟨_, rfl, ?_, rfl⟩, fol_free a, trivial⟩
  rw [List.append_assoc]
  exact .slash d1 d2'

theorem loc29 : Local3 F 29 .relPath (.n .relPath) (.t .abbrevSep) (.n .step) := by
  intro s v w x u u' u'' g g₂ g₁ g₀ a hA h1 h2 h3 ha hf G1 G2 G3 f0 f1 f2
  obtain ⟨e1, rfl, d1, rfl⟩ := G1
  obtain ⟨o, rfl, rfl, hk, rfl⟩ := G2
  obtain ⟨e2, rfl, d2, rfl⟩ := G3
  obtain rfl := kind_abbrevSep hk
  have d2' := step_true d2 ((state_facts _ (next_lt h2)).2.2.2.2.1 .abbrevSep (by simp) h2)
  refine .inr ⟨_, free, rfl, ⟨_, rfl, ?_, rfl⟩, fol_free a, trivial⟩
  rw [List.append_assoc]
  exact .dslash d1 d2'

theorem loc30 : Local2 F 30 .step (.n .axisSpec) (.n .nodeTest) := by
  intro s v w u u' g g₁ g₀ a hA h1 h2 ha hf G1 G2 f0 f1
  obtain ⟨ax, rfl, d, rfl⟩ := G1
  obtain ⟨t, rfl, d', rfl⟩ := G2
  have h0 : goto (next s (.n .axisSpec)) .expr = 0 := (state_facts s (goto_lt hA)).2.2.2.2.2.1 h1
  rw [decide_eq_true h0] at d'
  exact .inr ⟨_, free, rfl, ⟨_, rfl, d _ _ _ d', rfl⟩, fol_free a, trivial⟩

theorem loc31 : Local1 F 31 .step (.n .nodeTest) := by
  intro s v u g g₀ a hA h1 ha hf G1 f0
  obtain ⟨t, rfl, d, rfl⟩ := G1
  exact .inr ⟨_, free, rfl, ⟨_, rfl, .child d, rfl⟩, fol_free a, trivial⟩

theorem loc32 : Local1 F 32 .step (.t .dot) := by
  intro s v u g g₀ a hA h1 ha hf G1 f0
  obtain ⟨o, rfl, rfl, hk, rfl⟩ := G1
  obtain rfl := kind_dot hk
  exact .inr ⟨_, free, rfl, ⟨_, rfl, .dot, rfl⟩, fol_free a, trivial⟩

theorem loc33 : Local1 F 33 .step (.t .dotdot) := by
  intro s v u g g₀ a hA h1 ha hf G1 f0
  obtain ⟨o, rfl, rfl, hk, rfl⟩ := G1
  obtain rfl := kind_dotdot hk
  exact .inr ⟨_, free, rfl, ⟨_, rfl, .dotdot, rfl⟩, fol_free a, trivial⟩

theorem loc34 : Local2 F 34 .axisSpec (.t .name) (.t .axisSep) := by
  intro s v w u u' g g₁ g₀ a hA h1 h2 ha hf G1 G2 f0 f1
  obtain ⟨o, rfl, rfl, hk, rfl⟩ := G1
  obtain ⟨o', rfl, rfl, hk', rfl⟩ := G2
  obtain ⟨n, rfl⟩ := kind_nameTok hk
  obtain rfl := kind_axisSep hk'
  cases h : axisOf n with
  | none =>
    left
    have : axisAct (F := F) (.name n) = .error .runtime := by simp only [axisAct, Tok.text, h]
    exact this
  | some ax =>
    exact .inr ⟨_, free, act_axis (of_axisOf h) _, ⟨_, rfl, fun b w t ht => .axis (of_axisOf h) ht, rfl⟩, fol_free a, trivial⟩

theorem loc35 : Local1 F 35 .axisSpec (.t .at) := by
  intro s v u g g₀ a hA h1 ha hf G1 f0
  obtain ⟨o, rfl, rfl, hk, rfl⟩ := G1
  obtain rfl := kind_at hk
  exact .inr ⟨_, free, rfl, ⟨_, rfl, fun b w t ht => .attr ht, rfl⟩, fol_free a, trivial⟩

theorem loc36 : Local1 F 36 .nodeTest (.n .nameTest) := by
  intro s v u g g₀ a hA h1 ha hf G1 f0
  obtain ⟨t, rfl, d, rfl⟩ := G1
  exact .inr ⟨_, free, rfl, ⟨_, rfl, d _, rfl⟩, fol_free a, trivial⟩

theorem testAct_cases (e : Expr F) : testAct e = .error .runtime ∨ ∃ t, e = .test t ∧ testAct e = .ok (.test t) := by
  cases e <;> first | exact .inl rfl | exact .inr ⟨_, rfl, rfl⟩

theorem loc37 : Local1 F 37 .nodeTest (.n .funCall) := by
  intro s v u g g₀ a hA h1 ha hf G1 f0
  obtain ⟨n, w, as, rfl, rfl, hn, d, rfl⟩ := G1
  have h0 : goto s .expr = 0 := (state_facts s (goto_lt hA)).2.2.2.2.2.2 a (mem_terms a) ha
  rcases testAct_cases (called n.word as) with h | ⟨t, ht, h⟩
  · exact .inl h
  · refine .inr ⟨_, free, h, ⟨_, rfl, ?_, rfl⟩, fol_free a, trivial⟩
    rw [decide_eq_true h0]
    exact .type hn d ht

theorem loc38 : Local1 F 38 .nameTest (.t .star) := by
  intro s v u g g₀ a hA h1 ha hf G1 f0
  obtain ⟨o, rfl, rfl, hk, rfl⟩ := G1
  obtain rfl := kind_star hk
  exact .inr ⟨_, free, rfl, ⟨_, rfl, fun b => .star, rfl⟩, fol_free a, trivial⟩

theorem loc_name {c : Term} (hc : c ∈ names) : Local1 F (nameProd c) .nameTest (.t c) := by
  intro s v u g g₀ a hA h1 ha hf G1 f0
  obtain ⟨o, rfl, rfl, hk, rfl⟩ := G1
  subst hk
  have hn := kind_name hc
  exact .inr ⟨_, free, (act_name hn).2, ⟨_, rfl, fun b => .name hn, rfl⟩, fol_free a, trivial⟩

theorem loc42 : Local2 F 42 .predicated (.n .expr) (.n .predList) := by
  intro s v w u u' g g₁ g₀ a hA h1 h2 ha hf G1 G2 f0 f1
  obtain ⟨e, l, rfl, d, hl⟩ := G1
  obtain ⟨ps, rfl, d', hb, rfl⟩ := G2
  have h0 : lvl s = 0 := (state_facts s (goto_lt hA)).2.2.1 h1 hb
  have hr := (reduce_fact ha).2.2.2.2 ha
  exact .inr ⟨_, (9, .preds), rfl, ⟨_, rfl, .pred d (fun hp => f1.2.2.2 hp rfl) d', h0⟩,
    ⟨Nat.le_succ_of_le (level_le a), by simp, by simp, fun _ => hr⟩, trivial⟩

theorem loc43 : Local1 F 43 .predList (.n .pred) := by
  intro s v u g g₀ a hA h1 ha hf G1 f0
  obtain ⟨e, l, r, k, w, rfl, rfl, d, hb, rfl⟩ := G1
  exact .inr ⟨_, free, rfl, ⟨_, rfl, .one d, hb, rfl⟩, fol_free a, f0⟩

theorem loc44 : Local2 F 44 .predList (.n .predList) (.n .pred) := by
  intro s v w u u' g g₁ g₀ a hA h1 h2 ha hf G1 G2 f0 f1
  obtain ⟨ps, rfl, d', hb, rfl⟩ := G1
  obtain ⟨e, l, r, k, w, rfl, rfl, d, hb', rfl⟩ := G2
  exact .inr ⟨_, free, rfl, ⟨_, rfl, .more d' d, hb, rfl⟩, fol_free a, f0⟩

theorem loc45 : Local3 F 45 .pred (.t .lbrack) (.n .expr) (.t .rbrack) := by
  intro s v w x u u' u'' g g₂ g₁ g₀ a hA h1 h2 h3 ha hf G1 G2 G3 f0 f1 f2
  obtain ⟨o, rfl, rfl, hk, rfl⟩ := G1
  obtain ⟨e, l, rfl, d, hl⟩ := G2
  obtain ⟨o', rfl, rfl, hk', rfl⟩ := G3
  obtain rfl := kind_lbrack hk
  obtain rfl := kind_rbrack hk'
  exact .inr ⟨_, free, rfl, ⟨_, _, _, _, _, rfl, rfl, d, h1, rfl⟩, fol_free a, f0⟩

theorem loc_var {c : Term} (hc : c ∈ names) : Local2 F (varProd c) .varRef (.t .dollar) (.t c) := by
  intro s v w u u' g g₁ g₀ a hA h1 h2 ha hf G1 G2 f0 f1
  obtain ⟨o, rfl, rfl, hk, rfl⟩ := G1
  obtain ⟨o', rfl, rfl, hk', rfl⟩ := G2
  obtain rfl := kind_dollar hk
  subst hk'
  have hn := kind_name hc
  exact .inr ⟨_, free, (act_var hn).2, ⟨_, rfl, .var hn, rfl⟩, fol_free a, trivial⟩

theorem loc49 : Local1 F 49 .number (.t .float) := by
  intro s v u g g₀ a hA h1 ha hf G1 f0
  obtain ⟨o, rfl, rfl, hk, rfl⟩ := G1
  obtain ⟨x, rfl⟩ := kind_float hk
  exact .inr ⟨_, free, rfl, ⟨_, rfl, .float, rfl⟩, fol_free a, trivial⟩

theorem loc50 : Local1 F 50 .number (.t .integer) := by
  intro s v u g g₀ a hA h1 ha hf G1 f0
  obtain ⟨o, rfl, rfl, hk, rfl⟩ := G1
  obtain ⟨x, rfl⟩ := kind_integer hk
  exact .inr ⟨_, free, rfl, ⟨_, rfl, .integer, rfl⟩, fol_free a, trivial⟩

theorem loc_call {c : Term} (hc : c ∈ names) : Local2 F (callProd c) .funCall (.t c) (.n .formalArgs) := by
  intro s v w u u' g g₁ g₀ a hA h1 h2 ha hf G1 G2 f0 f1
  obtain ⟨o, rfl, rfl, hk, rfl⟩ := G1
  obtain ⟨es, rfl, d, rfl⟩ := G2
  subst hk
  have hn := kind_name hc
  exact .inr ⟨_, free, (act_call hn es).2, ⟨_, _, _, rfl, rfl, hn, d, rfl⟩, fol_free a, trivial⟩

theorem loc54 : Local2 F 54 .formalArgs (.t .lparen) (.t .rparen) := by
  intro s v w u u' g g₁ g₀ a hA h1 h2 ha hf G1 G2 f0 f1
  obtain ⟨o, rfl, rfl, hk, rfl⟩ := G1
  obtain ⟨o', rfl, rfl, hk', rfl⟩ := G2
  obtain rfl := kind_lparen hk
  obtain rfl := kind_rparen hk'
  exact .inr ⟨_, free, rfl, ⟨_, rfl, .none, rfl⟩, fol_free a, trivial⟩

theorem loc55 : Local3 F 55 .formalArgs (.t .lparen) (.n .argList) (.t .rparen) := by
  intro s v w x u u' u'' g g₂ g₁ g₀ a hA h1 h2 h3 ha hf G1 G2 G3 f0 f1 f2
  obtain ⟨o, rfl, rfl, hk, rfl⟩ := G1
  obtain ⟨es, rfl, d, rfl⟩ := G2
  obtain ⟨o', rfl, rfl, hk', rfl⟩ := G3
  obtain rfl := kind_lparen hk
  obtain rfl := kind_rparen hk'
  exact .inr ⟨_, free, rfl, ⟨_, rfl, .some d, rfl⟩, fol_free a, trivial⟩

end Amara.X
