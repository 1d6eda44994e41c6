import Verif.DdExchange.GroupProps

/-! Images to which the pointers of groups point after the exchange (C63). -/

set_option autoImplicit false

namespace Verif.DdExchange

open Verif.Boundary Verif.DdChem Verif.Cpp

variable {N : Fin 3 → ℕ} {D K : Type}

theorem expand_rel {i : Fin 3} {c c' : Proc N × Atom D} (h : c' ∈ expand i c) :
    (rel i c' = rel i c ∨ rel i c' = rel i c - 1 / (N i : ℝ) ∨ rel i c' = rel i c + 1 / (N i : ℝ)) ∧
    ∀ k, k ≠ i → rel k c' = rel k c := by
  constructor
  · rcases mem_expand.1 h with rfl | ⟨-, rfl⟩ | ⟨-, rfl⟩
    · exact Or.inl rfl
    · exact Or.inr (Or.inl (rel_copy_down i c))
    · exact Or.inr (Or.inr (rel_copy_up i c))
  · intro k hk
    obtain ⟨-, hf, -⟩ := expand_frame h
    obtain ⟨h1, h2, -⟩ := hf k hk
    simp only [rel, h2, bound_congr h1]

theorem triple_rel {c c0 c1 c2 : Proc N × Atom D} (h0 : c0 ∈ expand 0 c) (h1 : c1 ∈ expand 1 c0) (h2 : c2 ∈ expand 2 c1)
    (i : Fin 3) : rel i c2 = rel i c ∨ rel i c2 = rel i c - 1 / (N i : ℝ) ∨ rel i c2 = rel i c + 1 / (N i : ℝ) := by
  obtain ⟨a0, b0⟩ := expand_rel h0
  obtain ⟨a1, b1⟩ := expand_rel h1
  obtain ⟨a2, b2⟩ := expand_rel h2
  have hi : i = 0 ∨ i = 1 ∨ i = 2 := by omega
  rcases hi with rfl | rfl | rfl
  · rw [b2 0 (by decide), b1 0 (by decide)]; exact a0
  · rw [b2 1 (by decide), ← b0 1 (by decide)]; exact a1
  · rw [← b0 2 (by decide), ← b1 2 (by decide)]; exact a2

theorem mul_small {n : ℕ} (hn : 2 < n) {k : ℤ} (h1 : (n : ℤ) * k ≤ 2) (h2 : -2 ≤ (n : ℤ) * k) : k = 0 := by
  have hn' : (3 : ℤ) ≤ n := by omega
  rcases lt_trichotomy k 0 with h | h | h
  · nlinarith
  · exact h
  · nlinarith

/-- **C63, images.** In directions with more than two processors all pointers of a group point to
the same image of the group: the atoms, wherever they are, are found at their unwrapped positions up
to a common translation. -/
theorem C63_image (slab : Vec) {all : Set (Body K D)} {G : Proc N → PState K D} (h : Ready all G)
    (hn : Near slab all G) {b : Body K D} {u : D → Vec} (hu : Compact slab G b u) (p : Proc N)
    {gs : List (Grp K D)} (hgs : finalGroups slab G p = .ok gs) {g : Grp K D} (hg : g ∈ gs) (hgb : g.body = b) :
    ∃ m : Fin 3 → ℤ, ∀ x ∈ b.2.2, ∀ i, 2 < N i →
      (∀ a ∈ (exchangeAtomsG slab G p).base.atoms, a.data = x → a.pos i = u x i + m i) ∧
      (∀ y, g.ptr x = some (.ghost y) → y i = u x i + m i) := by
  obtain ⟨gs', hgs', hptr⟩ := C63_complete slab h hn p
  rw [hgs, Out.ok.injEq] at hgs'
  subst hgs'
  have hids : g.ids = b.2.2 := congrArg (fun b => b.2.2) hgb
  have inv := C63_invariant_local slab h p hgs
  obtain ⟨-, x0, hx0, a0, ha0, had0⟩ := (inv b).1 ⟨g, hg, hgb⟩
  -- columns of any atom after the exchange
  have mem : ∀ q, ∀ a ∈ (exchangeAtomsG slab G q).base.atoms, a.data ∈ b.2.2 → ∀ i, ∃ M : ℤ, a.pos i = u a.data i + M ∧
      ∃ R, Col (1 / (N i : ℝ)) (slab i) (u a.data i) ((q i).val - N i * M) R := by
    intro q a ha hax i
    obtain ⟨c, hc, hmk⟩ := (marked_exchangeAtomsG slab G q).mem_right ha
    have hbs : (transfer slab G q).base = exchangeAtoms slab (bases G) q := congrFun (bases_transfer slab G) q
    rw [← hbs] at hc
    obtain ⟨r, a1, ha1, ht⟩ := origin_target hc
    have hd1 : a1.data = a.data := by
      have := (target_spec slab r a1).1; rw [ht] at this; exact this.symm.trans hmk.1.symm
    obtain ⟨m, M, hM⟩ := member_of hn hu hax ha1 hd1 ht i
    exact ⟨M, by rw [hmk.2.1]; exact hM.pos', _, hM.col⟩
  choose m hm using fun i => mem p a0 ha0 (by rw [had0]; exact hx0) i
  rw [had0] at hm
  refine ⟨m, ?_⟩
  intro x hx i hi
  have hw := width_pos p i
  have hs := (hn.slabs i).1
  obtain ⟨R0, hR0⟩ := (hm i).2
  have near : ∀ q M R, Col (1 / (N i : ℝ)) (slab i) (u x i) (((q : Proc N) i).val - N i * M) R →
      ((q i).val : ℤ) - N i * M ≤ (p i).val - N i * m i + 1 ∧ ((p i).val : ℤ) - N i * m i ≤ (q i).val - N i * M + 1 := by
    intro q M R hc
    exact ⟨col_near hs hw hc hR0 (hu.size x hx x0 hx0 i (by omega)),
      col_near hs hw hR0 hc (hu.size x0 hx0 x hx i (by omega))⟩
  constructor
  · intro a ha hax
    obtain ⟨M, hM, R, hR⟩ := mem p a ha (by rw [hax]; exact hx) i
    rw [hax] at hM hR
    obtain ⟨n1, n2⟩ := near p M R hR
    have : m i - M = 0 := mul_small hi (by rw [mul_sub]; omega) (by rw [mul_sub]; omega)
    rw [hM, show m i = M by omega]
  · intro y hy
    rcases hptr g hg x (by rw [hids]; exact hx) with ⟨e, -⟩ | ⟨z, hz, hzd, e⟩
    · rw [hy] at e; simp at e
    rw [hy] at e
    simp only [Option.some.injEq, Ref.ghost.injEq] at e
    subst e
    obtain ⟨hv, hf⟩ := valid_exchangeG slab h.distinct
    obtain ⟨q, a, ha, c0, h0, c1, h1, h2⟩ := (mem_final hv hf p z).1 hz
    obtain ⟨hd, hsh⟩ := triple_frame h0 h1 h2
    obtain ⟨n, hnz⟩ := hsh i
    have hax : a.data = x := hd.symm.trans hzd
    obtain ⟨M, hM, R, hR⟩ := mem q a ha (by rw [hax]; exact hx) i
    rw [hax] at hM hR
    obtain ⟨n1, n2⟩ := near q M R hR
    have hz' : z.pos i = u x i + ((M + n : ℤ) : ℝ) := by
      have : z.pos i = a.pos i + n := hnz
      rw [this, hM]; push_cast; ring
    have hrel := triple_rel h0 h1 h2 i
    simp only [rel] at hrel
    rw [bound_zero p i (M + n), bound_zero q i M, hz', hM] at hrel
    obtain ⟨Q, hQ⟩ : ∃ Q : ℤ, Q = (q i).val - N i * M := ⟨_, rfl⟩
    obtain ⟨P, hP⟩ : ∃ P : ℤ, P = (p i).val - N i * (M + n) := ⟨_, rfl⟩
    rw [← hQ, ← hP] at hrel
    rw [← hQ] at n1 n2
    have hPQ : P = Q ∨ P = Q - 1 ∨ P = Q + 1 := by
      rcases hrel with e | e | e
      · left; apply cast_mul_cancel hw; linarith
      · right; left; apply cast_mul_cancel hw; push_cast; linarith
      · right; right; apply cast_mul_cancel hw; push_cast; linarith
    have h0' : m i - (M + n) = 0 := by
      apply mul_small hi
      · rw [mul_sub]; omega
      · rw [mul_sub]; omega
    rw [hz', show m i = M + n by omega]

end Verif.DdExchange
