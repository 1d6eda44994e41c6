import Verif.DdExchange.GroupFlags

/-! Geometry of groups during the exchange: flags of groups reach the atoms that need them. -/

set_option autoImplicit false

namespace Verif.DdExchange

open Verif.Boundary Verif.DdChem Verif.Cpp

variable {N : Fin 3 → ℕ} {D K : Type}

/-! ### One dimension -/

/-- An atom at unwrapped coordinate `u`, now in column `K` of domains of width `w`, that was stored
in column `R` before. -/
structure Col (w s u : ℝ) (K R : ℤ) : Prop where
  lo : (K : ℝ) * w ≤ u
  hi : u ≤ ((K : ℝ) + 1) * w
  org : R = K ∨ (R = K + 1 ∧ ((K : ℝ) + 1) * w - s < u) ∨ (R = K - 1 ∧ u < (K : ℝ) * w + s)

theorem Col.flip {w s u : ℝ} {K R : ℤ} (h : Col w s u K R) : Col w s (-u) (-K - 1) (-R - 1) := by
  refine ⟨?_, ?_, ?_⟩
  · push_cast; linarith [h.hi]
  · push_cast; linarith [h.lo]
  · rcases h.org with e | ⟨e, f⟩ | ⟨e, f⟩
    · left; omega
    · right; right
      refine ⟨by omega, ?_⟩
      push_cast; linarith
    · right; left
      refine ⟨by omega, ?_⟩
      push_cast; linarith

theorem col_near {w s ua ub : ℝ} {Ka Ra Kb Rb : ℤ} (hs : 0 < s) (hw : 0 < w) (ha : Col w s ua Ka Ra)
    (hb : Col w s ub Kb Rb) (h : |ua - ub| < w - s) : Ka ≤ Kb + 1 := by
  by_contra hn
  have h1 : Kb + 2 ≤ Ka := by omega
  have h2 : ((Kb : ℝ) + 2) ≤ (Ka : ℝ) := by exact_mod_cast h1
  have h3 := mul_le_mul_of_nonneg_right h2 hw.le
  have := (abs_lt.1 h).2
  nlinarith [ha.lo, hb.hi]

theorem col_up {w s ua ub ux : ℝ} {Ka Ra Kb Rb Kx Rx : ℤ} (hs : 0 < s) (hw : 0 < w) (ha : Col w s ua Ka Ra)
    (hb : Col w s ub Kb Rb) (hx : Col w s ux Kx Rx) (hab : |ua - ub| < w - s) (hxa : |ux - ua| < w - s)
    (hxb : |ux - ub| < w - s) (hK : Ka = Kb + 1) :
    Rx = Kb ∨ (Rx = Kb + 1 ∧ (((Kb : ℝ) + 1) * w - s < ub ∨ Rb = Kb)) := by
  have h1 := col_near hs hw hx hb hxb
  have h2 := col_near hs hw ha hx (by rw [abs_sub_comm]; exact hxa)
  have e : (Ka : ℝ) = Kb + 1 := by rw [hK]; push_cast; ring
  have hR : Rb = Kb - 1 → False := by
    intro hr
    rcases hb.org with f | ⟨f, -⟩ | ⟨-, f⟩
    · omega
    · omega
    · have := (abs_lt.1 hab).2
      have := ha.lo
      rw [e] at this
      nlinarith
  have hB : ((Kb : ℝ) + 1) * w - s < ub ∨ Rb = Kb := by
    rcases hb.org with f | ⟨-, f⟩ | ⟨f, -⟩
    · exact Or.inr f
    · exact Or.inl f
    · exact absurd f (fun h => hR h)
  have h3 : Kx = Kb ∨ Kx = Kb + 1 := by omega
  rcases h3 with h3 | h3
  · rcases hx.org with f | ⟨f, -⟩ | ⟨-, f⟩
    · left; omega
    · right; exact ⟨by omega, hB⟩
    · exfalso
      have := (abs_lt.1 hxa).1
      have := ha.lo
      rw [e] at this
      rw [h3] at f
      nlinarith
  · rcases hx.org with f | ⟨-, f⟩ | ⟨f, -⟩
    · right; exact ⟨by omega, hB⟩
    · exfalso
      have := (abs_lt.1 hxb).2
      have := hb.hi
      have e3 : (Kx : ℝ) = Kb + 1 := by rw [h3]; push_cast; ring
      rw [e3] at f
      nlinarith
    · left; omega

theorem col_down {w s ua ub ux : ℝ} {Ka Ra Kb Rb Kx Rx : ℤ} (hs : 0 < s) (hw : 0 < w) (ha : Col w s ua Ka Ra)
    (hb : Col w s ub Kb Rb) (hx : Col w s ux Kx Rx) (hab : |ua - ub| < w - s) (hxa : |ux - ua| < w - s)
    (hxb : |ux - ub| < w - s) (hK : Ka = Kb - 1) :
    Rx = Kb ∨ (Rx = Kb - 1 ∧ (ub < (Kb : ℝ) * w + s ∨ Rb = Kb)) := by
  have fl : ∀ a b : ℝ, |a - b| < w - s → |-a - -b| < w - s := by
    intro a b h
    rwa [show -a - -b = -(a - b) by ring, abs_neg]
  rcases col_up hs hw ha.flip hb.flip hx.flip (fl _ _ hab) (fl _ _ hxa) (fl _ _ hxb) (by omega) with h | ⟨h, h' | h'⟩
  · left; omega
  · right
    refine ⟨by omega, Or.inl ?_⟩
    push_cast at h'
    linarith
  · right
    exact ⟨by omega, Or.inr (by omega)⟩

/-! ### Atoms -/

theorem width_mul (p : Proc N) (i : Fin 3) : (N i : ℝ) * (1 / (N i : ℝ)) = 1 := by
  have hN : (0 : ℝ) < N i := by have := (p i).2; exact_mod_cast (by omega : 0 < N i)
  field_simp

theorem bound_zero (p : Proc N) (i : Fin 3) (m : ℤ) :
    bound p i 0 = (((p i).val - N i * m : ℤ) : ℝ) * (1 / (N i : ℝ)) + m := by
  have h4 : (((0 : Fin 2).val : ℕ) : ℝ) = 0 := by norm_num
  have h := width_mul p i
  simp only [bound, h4]
  push_cast
  linear_combination (m : ℝ) * h

theorem bound_one (p : Proc N) (i : Fin 3) (m : ℤ) :
    bound p i 1 = ((((p i).val - N i * m : ℤ) : ℝ) + 1) * (1 / (N i : ℝ)) + m := by
  rw [bound_width, bound_zero p i m]; ring

theorem cast_mul_cancel {w : ℝ} (hw : 0 < w) {a b : ℤ} (h : (a : ℝ) * w = (b : ℝ) * w) : a = b := by
  have := mul_right_cancel₀ hw.ne' h
  exact_mod_cast this

/-- Columns of an atom before and after the exchange. -/
theorem column {slab : Vec} (hs : SlabOK N slab) (r : Proc N) (a : Atom D) (hin : InSlab slab r a.pos) (i : Fin 3)
    {u : ℝ} {m : ℤ} (hu : a.pos i = u + m) : ∃ M : ℤ, (target slab (r, a)).2.pos i = u + M ∧
    Col (1 / (N i : ℝ)) (slab i) u (((target slab (r, a)).1 i).val - N i * M) ((r i).val - N i * m) ∧
    ((a.pos i < bound r i 0 ∧ (((target slab (r, a)).1 i).val : ℤ) - N i * M = (r i).val - N i * m - 1) ∨
     (bound r i 1 < a.pos i ∧ (((target slab (r, a)).1 i).val : ℤ) - N i * M = (r i).val - N i * m + 1) ∨
     (bound r i 0 ≤ a.pos i ∧ a.pos i ≤ bound r i 1 ∧
        (((target slab (r, a)).1 i).val : ℤ) - N i * M = (r i).val - N i * m)) := by
  obtain ⟨-, -, ht⟩ := target_spec slab r a
  obtain ⟨⟨n, hn⟩, hl, hh, hm⟩ := ht i
  obtain ⟨p, hp⟩ : ∃ p, p = (target slab (r, a)).1 := ⟨_, rfl⟩
  obtain ⟨y, hy⟩ : ∃ y, y = (target slab (r, a)).2.pos i := ⟨_, rfl⟩
  rw [← hp, ← hy] at hl hh hm
  rw [← hy] at hn
  rw [← hp, ← hy]
  have hw := width_pos r i
  have hsi := (hs i)
  have r0 := bound_zero r i m
  have r1 := bound_one r i m
  have p0 := bound_zero p i (m + n)
  have p1 := bound_one p i (m + n)
  obtain ⟨R, hR⟩ : ∃ R : ℤ, R = (r i).val - N i * m := ⟨_, rfl⟩
  obtain ⟨Q, hQ⟩ : ∃ Q : ℤ, Q = (p i).val - N i * (m + n) := ⟨_, rfl⟩
  rw [← hR] at r0 r1
  rw [← hQ] at p0 p1
  have hn' : y = u + ((m + n : ℤ) : ℝ) := by rw [hn, hu]; push_cast; ring
  refine ⟨m + n, hn', ?_⟩
  rw [← hR, ← hQ]
  have hi := hin i
  generalize 1 / (N i : ℝ) = w at *
  by_cases c0 : a.pos i < bound r i 0
  · have h1 := hl c0
    have e : Q = R - 1 := by
      have : ((Q + 1 : ℤ) : ℝ) * w = (R : ℝ) * w := by push_cast; linarith
      have := cast_mul_cancel hw this
      omega
    have e' : (R : ℝ) = Q + 1 := by rw [e]; push_cast; ring
    refine ⟨⟨?_, ?_, ?_⟩, Or.inl ⟨c0, e⟩⟩
    · have := hi.1
      rw [r0, e'] at this
      linarith [hsi.2]
    · rw [r0, e'] at c0; linarith
    · right; left
      refine ⟨by omega, ?_⟩
      have := hi.1
      rw [r0, e'] at this
      linarith
  · by_cases c1 : bound r i 1 < a.pos i
    · have h1 := hh c1
      have e : Q = R + 1 := by
        have : (Q : ℝ) * w = ((R + 1 : ℤ) : ℝ) * w := by push_cast; linarith
        exact cast_mul_cancel hw this
      have e' : (R : ℝ) = Q - 1 := by rw [e]; push_cast; ring
      refine ⟨⟨?_, ?_, ?_⟩, Or.inr (Or.inl ⟨c1, e⟩)⟩
      · rw [r1, e'] at c1; linarith
      · have := hi.2
        rw [r1, e'] at this
        linarith [hsi.2]
      · right; right
        refine ⟨by omega, ?_⟩
        have := hi.2
        rw [r1, e'] at this
        linarith
    · obtain ⟨e1, e2⟩ := hm (not_lt.1 c0) (not_lt.1 c1)
      have hn0 : n = 0 := by
        have : (n : ℝ) = 0 := by linarith
        exact_mod_cast this
      have e : Q = R := by rw [hQ, hR, e1, hn0, add_zero]
      refine ⟨⟨?_, ?_, Or.inl e.symm⟩, Or.inr (Or.inr ⟨not_lt.1 c0, not_lt.1 c1, e⟩)⟩
      · rw [e]; linarith [not_lt.1 c0]
      · rw [e]; linarith [not_lt.1 c1]

/-! ### Flags of groups -/

theorem fold_flag (d : Dir) (step : Plan → Dir → Plan) (h1 : ∀ q e, e ≠ d → (step q e).ghost d.1 d.2 = q.ghost d.1 d.2)
    (h2 : ∀ q, (step q d).ghost d.1 d.2 = true) (l : List Dir) (hd : d ∈ l) (q : Plan) :
    (l.foldl step q).ghost d.1 d.2 = true := by
  induction l using List.reverseRecOn with
  | nil => simp at hd
  | append_singleton l e ih =>
    rw [List.foldl_append, List.foldl_cons, List.foldl_nil]
    by_cases he : e = d
    · subst he; exact h2 _
    · rw [h1 _ _ he]
      apply ih
      rcases List.mem_append.1 hd with h | h
      · exact h
      · rw [List.mem_singleton] at h; exact absurd h.symm he

theorem mem_dirs (d : Dir) : d ∈ dirs := by
  obtain ⟨i, j⟩ := d
  fin_cases i <;> fin_cases j <;> simp [dirs]

/-- A group that is incomplete or spans a boundary is flagged. -/
theorem spanPlan_flag (slab : Vec) (p : Proc N) (atoms : List (Atom D)) (g : Grp K D) (d : Dir)
    (hd : gridFlag N d.1 = true) (h : g.complete = true → spans slab p atoms g d = true) :
    (spanPlan slab p atoms g).ghost d.1 d.2 = true := by
  have ne : ∀ e : Dir, e ≠ d → ¬ (d.1 = e.1 ∧ d.2 = e.2) := fun e he hh => he (Prod.ext hh.1 hh.2).symm
  unfold spanPlan
  split
  · rename_i hc
    apply fold_flag
    · intro q e he
      split
      · split <;> simp [ghost_setGhost, ghost_clearGhost, ne e he]
      · rfl
    · intro q
      rw [if_pos hd, if_pos (h hc)]
      simp [ghost_setGhost]
    · exact mem_dirs d
  · apply fold_flag
    · intro q e he
      split
      · simp [ghost_setGhost, ne e he]
      · rfl
    · intro q
      rw [if_pos hd]
      simp [ghost_setGhost]
    · exact mem_dirs d

/-! ### Copies -/

theorem expand_reach (i : Fin 3) (c : Proc N × Atom D) (k : Fin (N i))
    (h : k = c.1 i ∨ (k = down (c.1 i) ∧ c.2.plan.ghost i 0 = true) ∨ (k = up (c.1 i) ∧ c.2.plan.ghost i 1 = true)) :
    ∃ c' ∈ expand i c, c'.1 i = k := by
  rcases h with h | ⟨h, hg⟩ | ⟨h, hg⟩
  · exact ⟨c, mem_expand.2 (Or.inl rfl), h.symm⟩
  · exact ⟨copyDir (i, 0) c, mem_expand.2 (Or.inr (Or.inl ⟨hg, rfl⟩)), by simp [copyDir, dest, h]⟩
  · exact ⟨copyDir (i, 1) c, mem_expand.2 (Or.inr (Or.inr ⟨hg, rfl⟩)), by simp [copyDir, dest, h]⟩

/-- If flags allow it in each direction, a copy is made on processor `p`. -/
theorem triple_reach (c : Proc N × Atom D) (p : Proc N)
    (h : ∀ i, p i = c.1 i ∨ (p i = down (c.1 i) ∧ c.2.plan.ghost i 0 = true) ∨
      (p i = up (c.1 i) ∧ c.2.plan.ghost i 1 = true)) :
    ∃ c0 ∈ expand 0 c, ∃ c1 ∈ expand 1 c0, ∃ c2 ∈ expand 2 c1, c2.1 = p ∧ c2.2.data = c.2.data := by
  obtain ⟨c0, h0, p0⟩ := expand_reach 0 c (p 0) (h 0)
  obtain ⟨-, k0, -⟩ := expand_frame h0
  obtain ⟨a1, -, g1⟩ := k0 1 (by decide)
  obtain ⟨c1, h1, p1⟩ := expand_reach 1 c0 (p 1) (by rw [a1, g1, g1]; exact h 1)
  obtain ⟨-, k1, -⟩ := expand_frame h1
  obtain ⟨a2, -, g2⟩ := k0 2 (by decide)
  obtain ⟨a3, -, g3⟩ := k1 2 (by decide)
  obtain ⟨c2, h2, p2⟩ := expand_reach 2 c1 (p 2) (by rw [a3, a2, g3, g3, g2, g2]; exact h 2)
  obtain ⟨-, k2, -⟩ := expand_frame h2
  refine ⟨c0, h0, c1, h1, c2, h2, ?_, (triple_frame h0 h1 h2).1⟩
  funext i
  fin_cases i
  · change c2.1 0 = p 0
    rw [(k2 0 (by decide)).1, (k1 0 (by decide)).1, p0]
  · change c2.1 1 = p 1
    rw [(k2 1 (by decide)).1, p1]
  · exact p2

end Verif.DdExchange
