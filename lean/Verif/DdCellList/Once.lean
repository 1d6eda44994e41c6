import Verif.DdCellList.Props

/-! # C22: every pair is listed exactly once -/

set_option autoImplicit false

namespace Verif.DdCellList

open Verif.Boundary Verif.Cpp Verif.McCellList

variable {A : Type}

theorem test_iff {cart : Vec → Vec} {c : ℝ} {pos : A → Vec} {masked : A → A → Prop} {a b : A} :
    test cart c pos masked a b = true ↔ Within cart c (pos a) (pos b) ∧ ¬ masked a b := by
  unfold test; simp

/-- **C22, one processor.** A processor holds `locals` in its domain and `ghosts` outside. The
pairs visited are pairs of a local atom and another atom that pass the distance test and are not
masked; no entry occurs twice; each such pair of local atoms occurs in exactly one order; without
reverse communication each such pair of a local atom and a ghost occurs. In the latter case the
domain must be at least two cutoffs wide in the last direction (see `C22_thin_domain_twice`). -/
theorem C22_processor_partial {L : Vec} {cart : Vec → Vec} {n : ℤ} (hf : Frame L cart n) {c : ℝ} (hc : 0 < c)
    {masked : A → A → Prop} (hsym : ∀ a b, masked a b → masked b a) {lower upper : Vec} {reverse : Bool}
    {pos : A → Vec} {locals ghosts : List A} (hnd : (locals ++ ghosts).Nodup)
    (hl : ∀ a ∈ locals, ∀ i, lower i ≤ pos a i ∧ pos a i < upper i)
    (hg : ∀ a ∈ ghosts, ¬ ∀ i, lower i ≤ pos a i ∧ pos a i < upper i)
    (hz : reverse = true ∨ 2 * (c / L 2) ≤ upper 2 - lower 2) {P : List (A × A)}
    (h : Lists L cart lower upper c n reverse pos masked (locals ++ ghosts) P) :
    P.Nodup ∧
    (∀ a b, (a, b) ∈ P → a ∈ locals ∧ b ∈ locals ++ ghosts ∧ a ≠ b ∧
      Within cart c (pos a) (pos b) ∧ ¬ masked a b) ∧
    (∀ a ∈ locals, ∀ b ∈ locals, a ≠ b → Within cart c (pos a) (pos b) → ¬ masked a b →
      Xor ((a, b) ∈ P) ((b, a) ∈ P)) ∧
    (reverse = false → ∀ a ∈ locals, ∀ b ∈ ghosts, Within cart c (pos a) (pos b) → ¬ masked a b →
      (a, b) ∈ P) := by
  obtain ⟨s, hm, hP, hmem⟩ := h.spec hf.pos hc hnd hz
  have hcut : ∀ i, 0 < c / L i := fun i => div_pos hc (hf.pos i)
  have hd : ∀ i, 2 * n < s.dim i := by rw [← hm.nCut]; exact hm.link.dim
  refine ⟨hP, ?_, ?_, ?_⟩
  · intro a b hab
    obtain ⟨h1, h2, h3, h4, h5, h6, h7⟩ := (hmem a b).1 hab
    rw [test_iff] at h3
    have hdom := (hm.isLocal_iff hcut _).1 h6
    refine ⟨?_, h2, ?_, h3⟩
    · rcases List.mem_append.1 h1 with h1 | h1
      · exact h1
      · exact absurd hdom (hg a h1)
    · rintro rfl
      rcases h7 with ⟨_, h7⟩ | ⟨_, h7, _⟩
      · exact order_asymm _ hnd h7 h7
      · exact h7 rfl
  · intro a ha b hb hne hw hma
    have ia := hm.inside_local hcut (hl a ha)
    have ib := hm.inside_local hcut (hl b hb)
    have la := (hm.isLocal_iff hcut _).2 (hl a ha)
    have lb := (hm.isLocal_iff hcut _).2 (hl b hb)
    have hnear := hm.near hcut _ _ (hw.each hf hc) (hw.sum hf hc)
    have ha' : a ∈ locals ++ ghosts := List.mem_append_left _ ha
    have hb' : b ∈ locals ++ ghosts := List.mem_append_left _ hb
    have hmb : ¬ masked b a := fun h => hma (hsym b a h)
    rw [hmem, hmem]
    unfold Listed
    have t1 : test cart c pos masked a b = true := test_iff.2 ⟨hw, hma⟩
    have t2 : test cart c pos masked b a = true := test_iff.2 ⟨hw.symm, hmb⟩
    simp only [ha', hb', t1, t2, ia, ib, la, lb, true_and, not_true, and_false, or_false]
    by_cases he : s.coord (pos a) = s.coord (pos b)
    · simp only [he, true_and, ne_eq, not_true, false_and, and_false, or_false]
      rcases order_total _ hne ha' hb' with h1 | h1
      · exact Or.inl ⟨h1, fun h2 => order_asymm _ hnd h1 h2⟩
      · exact Or.inr ⟨h1, fun h2 => order_asymm _ hnd h1 h2⟩
    · have he' : ¬ s.coord (pos b) = s.coord (pos a) := fun e => he e.symm
      have hn2 := near_neg hnear
      rw [neg_sub] at hn2
      simp only [he, he', hnear, hn2, false_and, false_or, true_and, ne_eq, not_false_eq_true]
      have h0 : off s.dim (s.coord (pos b) - s.coord (pos a)) ≠ 0 := by
        rw [ne_eq, off_eq_zero hd hnear.1, sub_eq_zero]; exact he'
      have hneg : off s.dim (s.coord (pos a) - s.coord (pos b)) =
          - off s.dim (s.coord (pos b) - s.coord (pos a)) := by rw [← off_neg, neg_sub]
      rw [hneg]
      rcases lt_or_gt_of_ne h0 with h1 | h1
      · exact Or.inr ⟨by omega, by omega⟩
      · exact Or.inl ⟨by omega, by omega⟩
  · intro hrev a ha b hb hw hma
    rw [hmem]
    have hnear := hm.near hcut _ _ (hw.each hf hc) (hw.sum hf hc)
    have la := (hm.isLocal_iff hcut _).2 (hl a ha)
    have lb : ¬ IsLocal s.dim n (s.coord (pos b)) := fun h => hg b hb ((hm.isLocal_iff hcut _).1 h)
    refine ⟨List.mem_append_left _ ha, List.mem_append_right _ hb, test_iff.2 ⟨hw, hma⟩,
      hm.inside_local hcut (hl a ha), hm.inside_near hcut (hl a ha) (hw.each hf hc), la, Or.inr
      ⟨hnear, ?_, Or.inr ⟨hrev, lb⟩⟩⟩
    intro e
    rw [e] at la
    exact lb la

/-! ## All processors, with reverse communication -/

open Verif.DdExchange

variable {N : Fin 3 → ℕ} {D : Type}

theorem bound_diff (p : Proc N) (i : Fin 3) : bound p i 1 - bound p i 0 = 1 / (N i : ℝ) := by
  unfold bound; simp; ring

theorem N_pos (p : Proc N) (i : Fin 3) : 0 < N i := lt_of_le_of_lt (Nat.zero_le _) (p i).isLt

/-- Owners of images of one position coincide. -/
theorem owner_unique {p q : Proc N} {x y : Vec} (hp : Owns p x) (hq : Owns q y) (h : SameImage x y) :
    p = q ∧ x = y := by
  obtain ⟨k, hk⟩ := h
  have key : ∀ i, p i = q i ∧ x i = y i := by
    intro i
    have h1 := hp i
    have h2 := hq i
    have hN : (0 : ℝ) < N i := by exact_mod_cast N_pos p i
    have hpi : ((p i).val : ℝ) + 1 ≤ N i := by exact_mod_cast (p i).isLt
    have hqi : ((q i).val : ℝ) + 1 ≤ N i := by exact_mod_cast (q i).isLt
    unfold bound at h1 h2
    simp only [Fin.val_zero, Fin.val_one, Nat.cast_zero, Nat.cast_one, add_zero, mul_one_div] at h1 h2
    rw [div_le_iff₀ hN, lt_div_iff₀ hN] at h1 h2
    have hk0 : k i = 0 := by
      have a1 : -1 < (k i : ℝ) := by
        by_contra hh
        push Not at hh
        have := hk i
        nlinarith [(p i).val.cast_nonneg (α := ℝ), (q i).val.cast_nonneg (α := ℝ)]
      have a2 : (k i : ℝ) < 1 := by
        by_contra hh
        push Not at hh
        have := hk i
        nlinarith [(p i).val.cast_nonneg (α := ℝ), (q i).val.cast_nonneg (α := ℝ)]
      have b1 : (-1 : ℤ) < k i := by exact_mod_cast a1
      have b2 : k i < 1 := by exact_mod_cast a2
      omega
    have hxy : y i = x i := by rw [hk i, hk0]; simp
    rw [hxy] at h2
    have c1 : ((p i).val : ℝ) < (q i).val + 1 := by linarith [h1.1, h2.2]
    have c2 : ((q i).val : ℝ) < (p i).val + 1 := by linarith [h1.2, h2.1]
    have d1 : (p i).val < (q i).val + 1 := by exact_mod_cast c1
    have d2 : (q i).val < (p i).val + 1 := by exact_mod_cast c2
    exact ⟨Fin.ext (by omega), hxy.symm⟩
  exact ⟨funext fun i => (key i).1, funext fun i => (key i).2⟩

/-- Grids of different processors are aligned. -/
theorem coord_aligned {cut : Vec} (hcut : ∀ i, 0 < cut i) {n : ℤ} {p : Proc N} {s : CL A}
    (hm : Made s (fun i => bound p i 0) (fun i => bound p i 1) cut n) (x : Vec) (k : IVec) (i : Fin 3) :
    s.coord (fun i => x i + k i) i =
      ⌊x i * ((N i : ℝ) * (axisDim (1 / (N i : ℝ)) (cut i) n : ℝ))⌋ +
      (k i * ((N i : ℤ) * axisDim (1 / (N i : ℝ)) (cut i) n) -
        (p i).val * axisDim (1 / (N i : ℝ)) (cut i) n + n) := by
  have hN : (0 : ℝ) < N i := by exact_mod_cast N_pos p i
  have hmp := hm.m_pos i
  have hlen := hm.len i
  rw [bound_diff] at hmp hlen
  have hmp' : (0 : ℝ) < (axisDim (1 / (N i : ℝ)) (cut i) n : ℝ) := by exact_mod_cast hmp
  rw [hm.coord_eq hcut]
  generalize axisDim (1 / (N i : ℝ)) (cut i) n = m at *
  rw [hlen]
  have e : (x i + (k i : ℝ) - bound p i 0) / (1 / (N i : ℝ) / (m : ℝ)) =
      x i * ((N i : ℝ) * (m : ℝ)) + ((k i * ((N i : ℤ) * m) - (p i).val * m : ℤ) : ℝ) := by
    unfold bound
    simp only [Fin.val_zero, Nat.cast_zero, add_zero]
    push_cast
    field_simp
    ring
  rw [e, Int.floor_add_intCast]
  ring

/-- Entry `e` (a processor and a pair) stands for the pair of atoms `a`, `b` at separation `w`. -/
def StandsFor (a b : D) (w : Vec) (e : Proc N × Atom D × Atom D) : Prop :=
  (e.2.1.data = a ∧ e.2.2.data = b ∧ e.2.2.pos - e.2.1.pos = w) ∨
  (e.2.1.data = b ∧ e.2.2.data = a ∧ e.2.2.pos - e.2.1.pos = -w)

theorem sameImage_trans {x y z : Vec} (h : SameImage x y) (g : SameImage y z) : SameImage x z := by
  obtain ⟨k, hk⟩ := h
  obtain ⟨l, hl⟩ := g
  exact ⟨fun i => k i + l i, fun i => by rw [hl i, hk i]; push_cast; ring⟩

theorem sameImage_symm {x y : Vec} (h : SameImage x y) : SameImage y x := by
  obtain ⟨k, hk⟩ := h
  exact ⟨fun i => - k i, fun i => by rw [hk i]; push_cast; ring⟩

/-- What the processors hold after an exchange. `A` are the data and positions of the atoms of the
system: each processor holds only images of these, all images within the slab around its domain,
none of them twice, and each atom is in the domain of a processor that holds it. -/
structure Held (slab : Vec) (A : Set (D × Vec)) (S : Proc N → List (Atom D)) : Prop where
  functional : ∀ d x y, (d, x) ∈ A → (d, y) ∈ A → x = y
  sound : ∀ q, ∀ b ∈ S q, ∃ x, (b.data, x) ∈ A ∧ SameImage x b.pos
  complete : ∀ q d x, (d, x) ∈ A → ∀ y, SameImage x y → InSlab slab q y → ∃ b ∈ S q, b.data = d ∧ b.pos = y
  once : ∀ q, ((S q).map fun b => (b.data, b.pos)).Nodup
  owner : ∀ d x, (d, x) ∈ A → ∃ p, ∃ u ∈ S p, u.data = d ∧ SameImage x u.pos ∧ Owns p u.pos

/-- Pairs on all processors, with reverse communication, from what the processors hold. -/
theorem held_pairs {L : Vec} {cart : Vec → Vec} {n : ℤ} (hf : Frame L cart n) {c : ℝ}
    (hc : 0 < c) {masked : D → D → Prop} (hsym : ∀ a b, masked a b → masked b a)
    {A : Set (D × Vec)} {S : Proc N → List (Atom D)} (hh : Held (fun i => c / L i) A S)
    (P : Proc N → List (Atom D × Atom D))
    (hP : ∀ p, Lists L cart (fun i => bound p i 0) (fun i => bound p i 1) c n true Atom.pos
      (fun a b => masked a.data b.data) (S p) (P p)) :
    (∀ p, (P p).Nodup) ∧
    (∀ d x, (d, x) ∈ A → ∀ e y, (e, y) ∈ A → d ≠ e → ¬ masked d e →
      ∀ w, SameImage (y - x) w → normSq (cart w) < c ^ 2 →
        ∃! t : Proc N × Atom D × Atom D, (t.2.1, t.2.2) ∈ P t.1 ∧ StandsFor d e w t) ∧
    (∀ p, ∀ t ∈ P p, t.1 ∈ S p ∧ t.2 ∈ S p ∧ t.1 ≠ t.2 ∧ ¬ masked t.1.data t.2.data ∧
      normSq (cart (t.2.pos - t.1.pos)) < c ^ 2) := by
  classical
  set slab : Vec := fun i => c / L i with hslab
  have hcut : ∀ i, 0 < slab i := fun i => div_pos hc (hf.pos i)
  have hnd : ∀ p, (S p).Nodup := fun p => List.Nodup.of_map _ (hh.once p)
  have hspec := fun p => (hP p).spec hf.pos hc (hnd p) (Or.inl rfl)
  choose s hm hPn hmem using hspec
  have hd : ∀ p i, 2 * n < (s p).dim i := fun p => by rw [← (hm p).nCut]; exact (hm p).link.dim
  have hdim : ∀ p i, (s p).dim i = axisDim (1 / (N i : ℝ)) (slab i) n + 2 * n := by
    intro p i; rw [(hm p).dim i, bound_diff]
  have hsame : ∀ p q, (s p).dim = (s q).dim := by
    intro p q; funext i; rw [hdim, hdim]
  have hlen : ∀ p q, (s p).len = (s q).len := by
    intro p q; funext i; rw [(hm p).len i, (hm q).len i, bound_diff, bound_diff]
  have howns : ∀ p x, IsLocal (s p).dim n ((s p).coord x) ↔ Owns p x := fun p x =>
    (hm p).isLocal_iff hcut x
  -- the atom with given data and position on a processor
  have huniq : ∀ p, ∀ u ∈ S p, ∀ v ∈ S p,
      u.data = v.data → u.pos = v.pos → u = v := by
    intro p u hu v hv h1 h2
    exact List.inj_on_of_nodup_map (hh.once p) hu hv (by rw [h1, h2])
  refine ⟨hPn, ?_, ?_⟩
  · intro da xa ha db xb hb hab hma w ⟨kw, hkw⟩ hw
    obtain ⟨p, u, hup, hud, ⟨ku, hku⟩, huo⟩ := hh.owner da xa ha
    obtain ⟨q, v, hvq, hvd, ⟨kv, hkv⟩, hvo⟩ := hh.owner db xb hb
    -- `u + w = v + k`
    let k : IVec := fun i => kw i + ku i - kv i
    have hk : ∀ i, u.pos i + w i = v.pos i + k i := by
      intro i
      have h1 := hkw i
      simp only [Pi.sub_apply] at h1
      rw [hku i, hkv i, h1]
      simp only [k]
      push_cast; ring
    have hwithin : Within cart c u.pos (fun i => v.pos i + k i) := by
      unfold Within
      rw [hf.lin]
      have : (fun i => v.pos i + (k i : ℝ)) - u.pos = w := by
        funext i; simp only [Pi.sub_apply]; rw [← hk i]; ring
      rw [this]; exact hw
    have hwithin' : Within cart c v.pos (fun i => u.pos i + ((-k) i : ℤ)) := by
      unfold Within
      rw [hf.lin]
      have : (fun i => u.pos i + (((-k) i : ℤ) : ℝ)) - v.pos = -w := by
        funext i; simp only [Pi.sub_apply, Pi.neg_apply]; push_cast; linarith [hk i]
      rw [this]
      have h2 := normSq_neg (cart w)
      have h3 : cart (-w) = - cart w := by
        have e1 := hf.lin 0 w
        have e2 := hf.lin 0 0
        simp only [sub_self, zero_sub] at e1 e2
        rw [← e2] at e1
        simpa using e1.symm
      rw [h3, h2]; exact hw
    have inslab : ∀ (p : Proc N) (x y : Vec), Owns p x → Within cart c x y → InSlab slab p y := by
      intro p x y hx hw i
      have h1 := hx i
      have h2 := abs_lt.1 (hw.each hf hc i)
      constructor
      · have := h2.1; simp only [hslab]; linarith
      · have := h2.2; simp only [hslab]; linarith
    -- the copy of `b` near `u`
    obtain ⟨v', hv'p, hv'd, hv'x⟩ := hh.complete p db xb hb (fun i => v.pos i + k i)
      ⟨fun i => kv i + k i, fun i => by beta_reduce; rw [hkv i]; push_cast; ring⟩ (inslab _ _ _ huo hwithin)
    obtain ⟨u', hu'q, hu'd, hu'x⟩ := hh.complete q da xa ha (fun i => u.pos i + ((-k) i : ℤ))
      ⟨fun i => ku i + (-k) i, fun i => by beta_reduce; rw [hku i]; push_cast; ring⟩ (inslab _ _ _ hvo hwithin')
    -- coordinates
    have hδ : (s q).coord u'.pos - (s q).coord v.pos = -((s p).coord v'.pos - (s p).coord u.pos) := by
      funext i
      have e0 : ∀ x : Vec, (fun i => x i + (((0 : IVec) i : ℤ) : ℝ)) = x := fun x => by funext i; simp
      have c1 := coord_aligned hcut (hm p) v.pos k i
      have c2 := coord_aligned hcut (hm p) u.pos 0 i
      have c3 := coord_aligned hcut (hm q) u.pos (-k) i
      have c4 := coord_aligned hcut (hm q) v.pos 0 i
      rw [e0] at c2 c4
      rw [hu'x, hv'x]
      simp only [Pi.sub_apply, Pi.neg_apply] at *
      rw [c1, c2, c3, c4]
      simp only [Pi.zero_apply]
      ring
    have hnear := (hm p).near hcut u.pos v'.pos (by rw [hv'x]; exact hwithin.each hf hc)
      (by rw [hv'x]; exact hwithin.sum hf hc)
    have hab' : ¬ masked u.data v'.data := by rw [hud, hv'd]; exact hma
    have hba' : ¬ masked v.data u'.data := by
      rw [hvd, hu'd]; exact fun h => hma (hsym _ _ h)
    have mem1 : (u, v') ∈ P p ↔ (((s p).coord u.pos = (s p).coord v'.pos ∧
        [u, v'].Sublist (S p)) ∨ ((s p).coord u.pos ≠ (s p).coord v'.pos ∧
        0 < off (s p).dim ((s p).coord v'.pos - (s p).coord u.pos))) := by
      rw [hmem]
      unfold Listed
      have t1 : test cart c Atom.pos (fun a b => masked a.data b.data) u v' = true :=
        test_iff.2 ⟨by rw [hv'x]; exact hwithin, hab'⟩
      have i1 := (hm p).inside_local hcut huo
      have i2 : (s p).Inside v'.pos := by
        rw [hv'x]; exact (hm p).inside_near hcut huo (hwithin.each hf hc)
      have l1 := (howns p u.pos).2 huo
      simp only [hup, hv'p, t1, i1, i2, l1, hnear, true_and, Bool.true_eq_false, false_and, or_false]
    have hn2 : NearCell (fun i => (s q).len i / (c / L i)) n ((s q).coord u'.pos - (s q).coord v.pos) := by
      rw [hδ, hlen q p]; exact near_neg hnear
    have mem2 : (v, u') ∈ P q ↔ (((s q).coord v.pos = (s q).coord u'.pos ∧
        [v, u'].Sublist (S q)) ∨ ((s q).coord v.pos ≠ (s q).coord u'.pos ∧
        0 < off (s q).dim ((s q).coord u'.pos - (s q).coord v.pos))) := by
      rw [hmem]
      unfold Listed
      have t1 : test cart c Atom.pos (fun a b => masked a.data b.data) v u' = true :=
        test_iff.2 ⟨by rw [hu'x]; exact hwithin', hba'⟩
      have i1 := (hm q).inside_local hcut hvo
      have i2 : (s q).Inside u'.pos := by
        rw [hu'x]; exact (hm q).inside_near hcut hvo (hwithin'.each hf hc)
      have l1 := (howns q v.pos).2 hvo
      simp only [hvq, hu'q, t1, i1, i2, l1, hn2, true_and, Bool.true_eq_false, false_and, or_false]
    -- entries that stand for the pair
    have entries : ∀ e : Proc N × Atom D × Atom D, (e.2.1, e.2.2) ∈ P e.1 →
        StandsFor da db w e → e = (p, u, v') ∨ e = (q, v, u') := by
      rintro ⟨r, x, y⟩ he hst
      simp only at he
      obtain ⟨m1, m2, m3, m4, m5, m6, -⟩ := (hmem r x y).1 he
      have hxo := (howns r x.pos).1 m6
      have image : ∀ z ∈ S r, ∀ d x, (d, x) ∈ A → z.data = d →
          SameImage x z.pos := by
        intro z hz d x hx e
        obtain ⟨x', e1, e2⟩ := hh.sound r z hz
        rw [e] at e1
        rwa [hh.functional d x x' hx e1]
      rcases hst with ⟨h1, h2, h3⟩ | ⟨h1, h2, h3⟩
      · left
        simp only at h1 h2 h3
        obtain ⟨rp, rx⟩ := owner_unique hxo huo (sameImage_trans (sameImage_symm (image x m1 da xa ha h1))
          ⟨ku, hku⟩)
        subst rp
        have exu : x = u := huniq r x m1 u hup (h1.trans hud.symm) rx
        subst exu
        have : y = v' := by
          refine huniq r y m2 v' hv'p (h2.trans hv'd.symm) ?_
          rw [hv'x]
          funext i
          have := congrFun h3 i
          simp only [Pi.sub_apply] at this
          rw [← hk i, ← this]; ring
        rw [this]
      · right
        simp only at h1 h2 h3
        obtain ⟨rp, rx⟩ := owner_unique hxo hvo (sameImage_trans (sameImage_symm (image x m1 db xb hb h1))
          ⟨kv, hkv⟩)
        subst rp
        have exu : x = v := huniq r x m1 v hvq (h1.trans hvd.symm) rx
        subst exu
        have : y = u' := by
          refine huniq r y m2 u' hu'q (h2.trans hu'd.symm) ?_
          rw [hu'x]
          funext i
          have := congrFun h3 i
          simp only [Pi.sub_apply, Pi.neg_apply] at this ⊢
          push_cast
          have := hk i
          linarith
        rw [this]
    have st1 : StandsFor da db w (p, u, v') := by
      refine Or.inl ⟨hud, hv'd, ?_⟩
      simp only
      rw [hv'x]; funext i
      simp only [Pi.sub_apply]; rw [← hk i]; ring
    have st2 : StandsFor da db w (q, v, u') := by
      refine Or.inr ⟨hvd, hu'd, ?_⟩
      simp only
      rw [hu'x]; funext i
      simp only [Pi.sub_apply, Pi.neg_apply]; push_cast; linarith [hk i]
    -- exactly one of the two is listed
    have hxor : Xor ((u, v') ∈ P p) ((v, u') ∈ P q) := by
      rw [mem1, mem2]
      by_cases he : (s p).coord u.pos = (s p).coord v'.pos
      · -- same cell: both atoms are local
        have hov : Owns p v'.pos := by
          rw [← howns, ← he, howns]; exact huo
        obtain ⟨rp, rx⟩ := owner_unique hov hvo ⟨fun i => - k i, fun i => by rw [hv'x]; push_cast; ring⟩
        subst rp
        have ev : v' = v := huniq p v' hv'p v hvq (hv'd.trans hvd.symm) rx
        subst ev
        have hk0 : ∀ i, (k i : ℝ) = 0 := by
          intro i
          have := congrFun hv'x i
          linarith
        have eu : u' = u := by
          refine huniq p u' hu'q u hup (hu'd.trans hud.symm) ?_
          rw [hu'x]; funext i
          simp only [Pi.neg_apply]; push_cast; rw [hk0 i]; ring
        subst eu
        have hne : u' ≠ v' := by
          rintro rfl; exact hab (hu'd.symm.trans hv'd)
        simp only [he, true_and, ne_eq, not_true, false_and, or_false]
        rcases order_total _ hne hup hv'p with h1 | h1
        · exact Or.inl ⟨h1, fun h2 => order_asymm _ (hnd p) h1 h2⟩
        · exact Or.inr ⟨h1, fun h2 => order_asymm _ (hnd p) h1 h2⟩
      · have he2 : ¬ (s q).coord v.pos = (s q).coord u'.pos := by
          intro e
          rw [e, sub_self] at hδ
          apply he
          have : (s p).coord v'.pos - (s p).coord u.pos = 0 := by
            rw [← neg_eq_zero]; exact hδ.symm
          exact (sub_eq_zero.1 this).symm
        have h0 : off (s p).dim ((s p).coord v'.pos - (s p).coord u.pos) ≠ 0 := by
          rw [ne_eq, off_eq_zero (hd p) hnear.1, sub_eq_zero]; exact fun e => he e.symm
        have hneg : off (s q).dim ((s q).coord u'.pos - (s q).coord v.pos) =
            - off (s p).dim ((s p).coord v'.pos - (s p).coord u.pos) := by
          rw [hδ, hsame q p, off_neg]
        simp only [he, he2, false_and, false_or, ne_eq, not_false_eq_true, true_and]
        rw [hneg]
        rcases lt_or_gt_of_ne h0 with h1 | h1
        · exact Or.inr ⟨by omega, by omega⟩
        · exact Or.inl ⟨by omega, by omega⟩
    rcases hxor with ⟨x1, x2⟩ | ⟨x1, x2⟩
    · refine ⟨(p, u, v'), ⟨x1, st1⟩, ?_⟩
      rintro e ⟨e1, e2⟩
      rcases entries e e1 e2 with h | h
      · exact h
      · subst h; exact absurd e1 x2
    · refine ⟨(q, v, u'), ⟨x1, st2⟩, ?_⟩
      rintro e ⟨e1, e2⟩
      rcases entries e e1 e2 with h | h
      · subst h; exact absurd e1 x2
      · exact h
  · rintro p ⟨x, y⟩ he
    obtain ⟨m1, m2, m3, -, -, -, m7⟩ := (hmem p x y).1 he
    rw [test_iff] at m3
    refine ⟨m1, m2, ?_, m3.2, ?_⟩
    · intro hxy
      obtain rfl : x = y := hxy
      rcases m7 with ⟨_, m7⟩ | ⟨_, m7, _⟩
      · exact order_asymm _ (hnd p) m7 m7
      · exact m7 rfl
    · have := m3.1
      unfold Within at this
      rwa [hf.lin] at this

/-- After `exchange` the processors hold what the pairs require. -/
theorem held_exchange {slab : Vec} (hs : SlabOK N slab) (G : Proc N → Local D) (hr : WithinReach slab G)
    (hu : OffUpperFaces G) (hid : Distinct fun p => (G p).atoms) :
    Held slab {t : D × Vec | ∃ p, ∃ a ∈ (G p).atoms, a.data = t.1 ∧ a.pos = t.2} (exchange slab G).atoms := by
  classical
  have hex := C17_exchange slab hs G hr hid
  refine ⟨?_, ?_, ?_, fun q => (hex q).2.2.1, ?_⟩
  · rintro d x y ⟨p0, a, ha, rfl, rfl⟩ ⟨q0, b, hb, e, rfl⟩
    have h1 : (p0, a) ∈ copies fun p => (G p).atoms := mem_copies.2 ha
    have h2 : (q0, b) ∈ copies fun p => (G p).atoms := mem_copies.2 hb
    have := Multiset.inj_on_of_nodup_map hid (p0, a) h1 (q0, b) h2 e.symm
    exact congrArg (fun c : Proc N × Atom D => c.2.pos) this
  · intro q b hb
    obtain ⟨-, p, a, ha, e, h⟩ := (hex q).1 b hb
    exact ⟨a.pos, ⟨p, a, ha, e.symm, rfl⟩, h⟩
  · rintro q d x ⟨p, a, ha, rfl, rfl⟩ y hy hq
    exact (hex q).2.1 p a ha y hy hq
  · rintro d x ⟨p0, a, ha, rfl, rfl⟩
    obtain ⟨f, hfm, hfs⟩ := C16_conservation slab G
    have h1 : f (p0, a) ∈ located (exchangeAtoms slab G) := by
      rw [hfm]; exact Multiset.mem_map_of_mem _ (mem_located.2 ha)
    have h2 : (f (p0, a)).2 ∈ (exchangeAtoms slab G (f (p0, a)).1).atoms := mem_located.1 h1
    obtain ⟨d1, k, hk⟩ := hfs (p0, a)
    obtain ⟨gh, hgh⟩ := (hex (f (p0, a)).1).2.2.2
    exact ⟨_, _, by rw [hgh]; exact List.mem_append_left _ h2, d1, ⟨k, hk⟩,
      C16_owner_partial slab G (hr.withinOne hs) hu _ _ h2⟩

/-- **C22, all processors.** The atoms of the system are exchanged between the processors
(`exchange`, C16 and C17), then each processor builds its lists with reverse communication. Every
two atoms at a separation `w` (of any of their images) less than the cutoff are represented by
exactly one entry of exactly one processor, in one order, and there are no other entries. -/
theorem C22_all_processors {L : Vec} {cart : Vec → Vec} {n : ℤ} (hf : Frame L cart n) {c : ℝ}
    (hc : 0 < c) {masked : D → D → Prop} (hsym : ∀ a b, masked a b → masked b a)
    (hs : SlabOK N fun i => c / L i) (G : Proc N → Local D)
    (hr : WithinReach (fun i => c / L i) G) (hu : OffUpperFaces G)
    (hid : Distinct fun p => (G p).atoms) (P : Proc N → List (Atom D × Atom D))
    (hP : ∀ p, Lists L cart (fun i => bound p i 0) (fun i => bound p i 1) c n true Atom.pos
      (fun a b => masked a.data b.data) ((exchange (fun i => c / L i) G).atoms p) (P p)) :
    (∀ p, (P p).Nodup) ∧
    (∀ p0, ∀ a ∈ (G p0).atoms, ∀ q0, ∀ b ∈ (G q0).atoms, a.data ≠ b.data → ¬ masked a.data b.data →
      ∀ w, SameImage (b.pos - a.pos) w → normSq (cart w) < c ^ 2 →
        ∃! e : Proc N × Atom D × Atom D, (e.2.1, e.2.2) ∈ P e.1 ∧ StandsFor a.data b.data w e) ∧
    (∀ p, ∀ e ∈ P p, ¬ masked e.1.data e.2.data ∧ normSq (cart (e.2.pos - e.1.pos)) < c ^ 2 ∧
      ∃ p0, ∃ a ∈ (G p0).atoms, ∃ q0, ∃ b ∈ (G q0).atoms, a.data = e.1.data ∧ b.data = e.2.data ∧
        SameImage (b.pos - a.pos) (e.2.pos - e.1.pos)) := by
  have hh := held_exchange hs G hr hu hid
  obtain ⟨h1, h2, h3⟩ := held_pairs hf hc hsym hh P hP
  refine ⟨h1, ?_, ?_⟩
  · intro p0 a ha q0 b hb hab hma
    exact h2 a.data a.pos ⟨p0, a, ha, rfl, rfl⟩ b.data b.pos ⟨q0, b, hb, rfl, rfl⟩ hab hma
  · intro p e he
    obtain ⟨m1, m2, -, m4, m5⟩ := h3 p e he
    obtain ⟨x, ⟨p1, a, ha, e1, rfl⟩, k1, f1⟩ := hh.sound p e.1 m1
    obtain ⟨y, ⟨p2, b, hb, e2, rfl⟩, k2, f2⟩ := hh.sound p e.2 m2
    refine ⟨m4, m5, p1, a, ha, p2, b, hb, e1, e2, fun i => k2 i - k1 i, ?_⟩
    intro i
    simp only [Pi.sub_apply]
    rw [f1 i, f2 i]; push_cast; ring

end Verif.DdCellList
