import Verif.Ewald.Props

/-!
# Ewald summation: examples, and where the code departs from C72
-/

set_option autoImplicit false

namespace Verif.Ewald

open Verif.Boundary Verif.Cpp Verif.Cpp.Out Filter Topology

/-- The cube of side `2π/x`. -/
noncomputable def cube (x : ℝ) : Box := ofOrtho (Ortho.default.setCubic (2 * Real.pi / x))

theorem cube_ok {x : ℝ} (h : 0 < x) : (cube x).OK :=
  ofOrtho_ok (.cubic _ (by have := Real.pi_pos; positivity) .default)

theorem cube_wave {x : ℝ} (h : 0 < x) (k : IVec) : (cube x).wave k = fun i => x * k i := by
  have hp := Real.pi_pos.ne'
  have hx := h.ne'
  funext i
  fin_cases i <;>
    simp [cube, ofOrtho, Box.wave, latComb, Ortho.setCubic, Ortho.reset, Ortho.default, setc] <;> field_simp

theorem cube_sq {x : ℝ} (h : 0 < x) (k : IVec) :
    normSq ((cube x).wave k) = x ^ 2 * ((k 0 * k 0 + k 1 * k 1 + k 2 * k 2 : ℤ) : ℝ) := by
  rw [cube_wave h]
  simp only [normSq]
  push_cast; ring

theorem normSq_le_one {a b c : ℤ} (h : a * a + b * b + c * c ≤ 1) :
    (-1 ≤ a ∧ a ≤ 1) ∧ (-1 ≤ b ∧ b ≤ 1) ∧ (-1 ≤ c ∧ c ≤ 1) := by
  refine ⟨⟨?_, ?_⟩, ⟨?_, ?_⟩, ⟨?_, ?_⟩⟩ <;> nlinarith [mul_self_nonneg a, mul_self_nonneg b, mul_self_nonneg c]

/-- With cutoff 5/4 there are three waves, if the side of the cube is suitable. -/
theorem cube_waves {x : ℝ} (h : 0 < x) (h1 : x ^ 2 ≤ 25 / 16) (h2 : 25 / 16 < x ^ 2 * 2) {s t : St}
    (hc : s.kCut = 5 / 4) (ht : s.makeWaves (cube x) = .ok t) (f : Wave → ℝ) :
    (t.waves.map f).sum = f ((cube x).record s.inter ![1, 0, 0]) +
      f ((cube x).record s.inter ![0, 1, 0]) + f ((cube x).record s.inter ![0, 0, 1]) := by
  have hb := cube_ok h
  have hm := made_of_ok ht
  have hp : t.waves.Perm [(cube x).record s.inter ![1, 0, 0], (cube x).record s.inter ![0, 1, 0],
      (cube x).record s.inter ![0, 0, 1]] := by
    rw [hm.waves]
    refine (List.perm_ext_iff_of_nodup (allWaves_nodup _ _ _ _ _ _) ?_).2 ?_
    · have e : ∀ k l : IVec, k ≠ l → (cube x).record s.inter k ≠ (cube x).record s.inter l :=
        fun k l hkl hr => hkl (congrArg Wave.k hr)
      have d : ∀ k l : IVec, (k 0 ≠ l 0 ∨ k 1 ≠ l 1) → k ≠ l := fun k l hkl hr => by
        subst hr; simp at hkl
      simp only [List.nodup_cons, List.mem_cons, List.not_mem_nil, or_false, not_or, List.nodup_nil,
        and_true, not_false_eq_true]
      exact ⟨⟨e _ _ (d _ _ (by simp)), e _ _ (d _ _ (by simp))⟩, e _ _ (d _ _ (by simp))⟩
    · intro w
      rw [mem_waves hb (by rw [hc]; norm_num), hc, cube_sq h]
      simp only [List.mem_cons, List.not_mem_nil, or_false]
      constructor
      · rintro ⟨hh, hle, hw⟩
        have h3 : w.k 0 * w.k 0 + w.k 1 * w.k 1 + w.k 2 * w.k 2 ≤ 1 := by
          by_contra hgt
          have h4 : (2 : ℤ) ≤ w.k 0 * w.k 0 + w.k 1 * w.k 1 + w.k 2 * w.k 2 := by omega
          have h5 : (2 : ℝ) ≤ ((w.k 0 * w.k 0 + w.k 1 * w.k 1 + w.k 2 * w.k 2 : ℤ) : ℝ) := by
            exact_mod_cast h4
          have h6 : x ^ 2 * 2 ≤ x ^ 2 * ((w.k 0 * w.k 0 + w.k 1 * w.k 1 + w.k 2 * w.k 2 : ℤ) : ℝ) :=
            mul_le_mul_of_nonneg_left h5 (sq_nonneg x)
          linarith
        have h7 : w.k = ![1, 0, 0] ∨ w.k = ![0, 1, 0] ∨ w.k = ![0, 0, 1] := by
          obtain ⟨⟨a1, a2⟩, ⟨b1, b2⟩, ⟨c1, c2⟩⟩ := normSq_le_one h3
          have e : ∀ a b c : ℤ, w.k 0 = a → w.k 1 = b → w.k 2 = c → w.k = ![a, b, c] := by
            intro a b c ha hb hc
            funext i; fin_cases i <;> assumption
          unfold Half at hh
          generalize w.k 0 = a at *
          generalize w.k 1 = b at *
          generalize w.k 2 = c at *
          have ha : a = -1 ∨ a = 0 ∨ a = 1 := by omega
          have hb : b = -1 ∨ b = 0 ∨ b = 1 := by omega
          have hc : c = -1 ∨ c = 0 ∨ c = 1 := by omega
          rcases ha with rfl | rfl | rfl <;> rcases hb with rfl | rfl | rfl <;>
            rcases hc with rfl | rfl | rfl <;> simp at h3 hh <;> first
            | exact Or.inl (e _ _ _ rfl rfl rfl)
            | exact Or.inr (Or.inl (e _ _ _ rfl rfl rfl))
            | exact Or.inr (Or.inr (e _ _ _ rfl rfl rfl))
        rw [hw]
        rcases h7 with h7 | h7 | h7 <;> rw [h7] <;> simp
      · rintro (rfl | rfl | rfl) <;> refine ⟨?_, ?_, rfl⟩ <;> simp [Half, Box.record] <;> linarith
  rw [(hp.map f).sum_eq]
  simp only [List.map_cons, List.map_nil, List.sum_cons, List.sum_nil]
  ring

/-- The state after parameters were read. -/
noncomputable def St.fresh (i : Inter) (c : ℝ) : St :=
  ⟨i, c, [], 0, 0, 0, 0, 0, 0, 0, 0, 0, false, none, none, none⟩

theorem cube_made {x : ℝ} (h : 0 < x) (h1 : x ^ 2 ≤ 25 / 16) {s : St} (hc : s.kCut = 5 / 4) :
    ∃ t, s.makeWaves (cube x) = .ok t := by
  refine (makeWaves_ok_iff (cube_ok h) s).2 ⟨by rw [hc]; norm_num, ![1, 0, 0], ?_, ?_⟩
  · intro h; simpa using congrFun h 0
  · rw [cube_sq h, hc]
    simp; linarith

/-- Waves exist, so that the theorems on energy, forces and stress are not empty. -/
example : ∃ t, (St.fresh (Inter.read 1 1 1) (5 / 4)).makeWaves (cube 1) = .ok t ∧ t.waves ≠ [] := by
  obtain ⟨t, h⟩ := cube_made one_pos (by norm_num) (s := St.fresh (Inter.read 1 1 1) (5 / 4)) rfl
  refine ⟨t, h, fun he => ?_⟩
  have := cube_waves one_pos (by norm_num) (by norm_num) rfl h (fun _ => 1)
  rw [he] at this
  norm_num at this

/-- Waves are not made if the cutoff is too small: the code throws. -/
example : (St.fresh (Inter.read 1 1 1) (1 / 2)).makeWaves (cube 1) = .throw := by
  rcases makeWaves_cases (cube 1) (St.fresh (Inter.read 1 1 1) (1 / 2)) with ⟨t, h, -⟩ | ⟨h, -⟩
  · exfalso
    obtain ⟨-, k, hk, hle⟩ := (makeWaves_ok_iff (cube_ok one_pos) _).1 ⟨t, h⟩
    rw [cube_sq one_pos] at hle
    have h1 : k 0 * k 0 + k 1 * k 1 + k 2 * k 2 < 1 := by
      have : ((k 0 * k 0 + k 1 * k 1 + k 2 * k 2 : ℤ) : ℝ) < 1 := by
        simp only [St.fresh] at hle; linarith
      exact_mod_cast this
    apply hk
    funext i
    have : ∀ a : ℤ, a * a ≤ 0 → a = 0 := fun a ha =>
      mul_self_eq_zero.1 (le_antisymm ha (mul_self_nonneg a))
    have p0 := mul_self_nonneg (k 0)
    have p1 := mul_self_nonneg (k 1)
    have p2 := mul_self_nonneg (k 2)
    have q0 : k 0 = 0 := this _ (by omega)
    have q1 : k 1 = 0 := this _ (by omega)
    have q2 : k 2 = 0 := this _ (by omega)
    fin_cases i
    · exact q0
    · exact q1
    · exact q2
  · exact h

/-- A box that is stretched along x. -/
noncomputable def stretched (x : ℝ) : Box :=
  ofOrtho (Ortho.default.setOrthorhombic ![2 * Real.pi * (1 + x), 2 * Real.pi, 2 * Real.pi])

theorem stretched_strained : Strained stretched (fun i j => if i = 0 ∧ j = 0 then 1 else 0) := by
  have hp := Real.pi_pos
  constructor
  · filter_upwards [lt_mem_nhds (show (-1 : ℝ) < 0 by norm_num)] with x hx
    refine ofOrtho_ok (.ortho _ ?_ .default)
    intro i
    fin_cases i
    · show 0 < 2 * Real.pi * (1 + x)
      have : 0 < 1 + x := by linarith
      positivity
    · show 0 < 2 * Real.pi
      positivity
    · show 0 < 2 * Real.pi
      positivity
  · refine Eventually.of_forall fun x j => ?_
    funext i
    fin_cases i <;> fin_cases j <;>
      simp [stretched, ofOrtho, strain, Ortho.setOrthorhombic, Ortho.reset, Ortho.default, setc] <;> ring

theorem stretched_zero : stretched 0 = cube 1 := by
  unfold stretched cube Ortho.setCubic Ortho.setOrthorhombic ofOrtho
  simp only [add_zero, mul_one, div_one]
  rfl

/-- The hypotheses of `C72_stress` are met by a cube that is stretched along one axis. -/
example (atoms : List Atom) := C72_stress stretched_strained (Inter.read_ok one_pos one_pos)
  (s := St.fresh (Inter.read 1 1 1) (5 / 4)) rfl (by norm_num [St.fresh])
  (by
    rw [stretched_zero]
    refine ⟨![1, 0, 0], fun h => by simpa using congrFun h 0, ?_⟩
    rw [cube_sq one_pos]; simp [St.fresh]; norm_num)
  (by
    rw [stretched_zero]
    intro k h
    rw [cube_sq one_pos] at h
    simp only [St.fresh, one_pow, one_mul] at h
    have : ((16 * (k 0 * k 0 + k 1 * k 1 + k 2 * k 2) : ℤ) : ℝ) = ((25 : ℤ) : ℝ) := by
      push_cast at h ⊢; linarith
    have := Int.cast_injective this
    omega) atoms

/-- An atom with a charge of at most `10⁻¹⁰` gets no force, although the energy depends on its
position. -/
theorem C72_charge_violated : ∃ (b : Box) (s t : St) (a a' : Atom) (v : Vec) (E : ℝ → ℝ) (d : ℝ),
    b.OK ∧ s.inter.OK ∧ s.makeWaves b = .ok t ∧ a.q ≠ 0 ∧
    (∃ f', t.addForces b [a, a'] [0, 0] = .ok (t, [0, f'])) ∧
    (∀ x, ∃ t', t.computeEnergy b [⟨a.q, a.r + x • v⟩, a'] = .ok t' ∧ t'.kSpaceEnergy = some (E x)) ∧
    d ≠ 0 ∧ HasDerivAt E d 0 := by
  obtain ⟨t, h⟩ := cube_made one_pos (by norm_num) (s := St.fresh (Inter.read 1 1 1) (5 / 4)) rfl
  have hb := cube_ok one_pos
  have hm := made_of_ok h
  have hd := hasDerivAt_kEnergy (cube 1) t.inter t.waves [] [⟨1, 0⟩] (1 / 10 ^ 10)
    ![Real.pi / 2, 0, 0] ![1, 0, 0]
  refine ⟨cube 1, _, t, ⟨1 / 10 ^ 10, ![Real.pi / 2, 0, 0]⟩, ⟨1, 0⟩, ![1, 0, 0], _, _, hb,
    Inter.read_ok one_pos one_pos, h, by norm_num, ?_, fun x => ⟨_, computeEnergy_has hb hm.has _, rfl⟩, ?_, hd⟩
  · rw [addForces_has hb hm.has hm.idx]
    refine ⟨0 + kForce (cube 1) t.waves [⟨1 / 10 ^ 10, ![Real.pi / 2, 0, 0]⟩, ⟨1, 0⟩] ⟨1, 0⟩, ?_⟩
    simp
    norm_num
  · change -(dot (kForce (cube 1) t.waves [⟨1 / 10 ^ 10, ![Real.pi / 2, 0, 0]⟩, ⟨1, 0⟩]
      ⟨1 / 10 ^ 10, ![Real.pi / 2, 0, 0]⟩) ![1, 0, 0]) ≠ 0
    unfold kForce
    rw [dot_listSum, cube_waves one_pos (by norm_num) (by norm_num) rfl h]
    have hv := hb.vol
    have he := Real.exp_pos (-(1 / 4))
    simp [Box.record, amp, factor_cons, cube_wave one_pos, dot]
    have h10 : ((10 : ℂ) ^ 10).im = 0 := by
      rw [show (10 : ℂ) ^ 10 = ((10 ^ 10 : ℝ) : ℂ) by push_cast; rfl]; exact Complex.ofReal_im _
    refine ⟨hv.ne', ?_, ?_⟩
    · simp [St.fresh, Inter.read, Inter.derive, Inter.kPot, normSq]
    · rw [h10]; simp [factor]

/-- Waves that were made for another box give another energy than waves made for the present box. -/
theorem C72_stale_violated : ∃ (b b' : Box) (s t t1 t2 t3 : St) (atoms : List Atom) (e e' : ℝ),
    b.OK ∧ b'.OK ∧ s.inter.OK ∧ s.makeWaves b = .ok t ∧
    t.computeEnergy b' atoms = .ok t1 ∧ t1.kSpaceEnergy = some e ∧
    s.makeWaves b' = .ok t2 ∧ t2.computeEnergy b' atoms = .ok t3 ∧ t3.kSpaceEnergy = some e' ∧
    e ≠ e' := by
  obtain ⟨t, h⟩ := cube_made one_pos (by norm_num) (s := St.fresh (Inter.read 1 1 1) (5 / 4)) rfl
  obtain ⟨t2, h2⟩ := cube_made (show (0 : ℝ) < 6 / 5 by norm_num) (by norm_num)
    (s := St.fresh (Inter.read 1 1 1) (5 / 4)) rfl
  have hb' := cube_ok (show (0 : ℝ) < 6 / 5 by norm_num)
  have hm := made_of_ok h
  have hm2 := made_of_ok h2
  refine ⟨cube 1, cube (6 / 5), _, t, _, t2, _, [⟨1, 0⟩], _, _, cube_ok one_pos, hb',
    Inter.read_ok one_pos one_pos, h, computeEnergy_has hb' hm.has _, rfl, h2,
    computeEnergy_has hb' hm2.has _, rfl, ?_⟩
  intro he
  have hf : ∀ k, Complex.normSq (factor [⟨1, 0⟩] k) = 1 := by
    intro k; simp [factor, dot]
  have hw : waveSum (cube (6 / 5)) t.waves [⟨1, 0⟩] = waveSum (cube (6 / 5)) t2.waves [⟨1, 0⟩] := by
    rw [hm.inter, hm2.inter] at he
    have := hb'.vol.ne'
    field_simp at he
    linarith
  unfold waveSum at hw
  simp only [hf, one_mul] at hw
  rw [cube_waves one_pos (by norm_num) (by norm_num) rfl h,
    cube_waves (by norm_num) (by norm_num) (by norm_num) rfl h2] at hw
  simp only [Box.record, cube_sq one_pos, cube_sq (show (0 : ℝ) < 6 / 5 by norm_num), Inter.kPot] at hw
  simp [St.fresh, Inter.read, Inter.derive] at hw
  have h3 : Real.exp (-(4⁻¹ * (6 / 5) ^ 2)) < Real.exp (-4⁻¹) := Real.exp_lt_exp.2 (by norm_num)
  have h4 := Real.exp_pos (-(4⁻¹ * (6 / 5) ^ 2))
  generalize Real.exp (-(4⁻¹ * (6 / 5) ^ 2)) = x at *
  generalize Real.exp (-4⁻¹) = y at *
  norm_num at hw
  linarith

/-- After `set` the energy of the pairs within the cutoff is still that of the former parameters. -/
theorem C72_set_violated : ∃ (b : Box) (atoms : List Atom) (pairs : List (ℝ × ℝ)) (s1 s2 s3 s4 : St)
    (e1 e2 e3 : ℝ), b.OK ∧
    (St.fresh (Inter.read 1 1 1) (5 / 4)).energy b atoms pairs = .ok (s1, e1) ∧
    s1.set "epsilon" 2 = .ok s2 ∧ s2.energy b atoms pairs = .ok (s3, e2) ∧
    (St.fresh (Inter.read 2 1 1) (5 / 4)).energy b atoms pairs = .ok (s4, e3) ∧ e2 ≠ e3 := by
  have hb := cube_ok one_pos
  have key : ∀ (s : St) (atoms : List Atom) (pairs : List (ℝ × ℝ)), s.kCut = 5 / 4 →
      s.hasWaves = false → s.kSpaceEnergy = none → ∃ t w : St, s.makeWaves (cube 1) = .ok w ∧
        s.energy (cube 1) atoms pairs = .ok ({ t with
          rSpaceEnergy := some (s.rSpaceEnergy.getD (rSum s.inter pairs)) },
          waveSum (cube 1) w.waves atoms / (cube 1).volume - selfEnergy s.inter atoms +
            s.rSpaceEnergy.getD (rSum s.inter pairs)) ∧ t.kCut = s.kCut ∧ t.inter = s.inter := by
    intro s atoms pairs hc hw hk
    obtain ⟨w, h⟩ := cube_made one_pos (by norm_num) hc
    have hm := made_of_ok h
    refine ⟨{ w with
      kSpaceEnergy := some (waveSum (cube 1) w.waves atoms / (cube 1).volume - selfEnergy s.inter atoms) },
      w, h, ?_, hm.kCut, hm.inter⟩
    unfold St.energy St.getKSpaceEnergy
    rw [hk]
    simp only [Option.isSome_none, Bool.false_eq_true, if_false]
    rw [computeEnergy_unset hb h hw]
    simp only [ok_bind, hm.inter, hm.rE]
  obtain ⟨t1, w1, m1, a1, c1, i1⟩ := key (St.fresh (Inter.read 1 1 1) (5 / 4))
    [⟨1, 0⟩, ⟨1, ![1 / 2, 0, 0]⟩] [(1, 1 / 4)] rfl rfl rfl
  obtain ⟨t2, w2, m2, a2, c2, i2⟩ := key (St.fresh (Inter.read 2 1 1) (5 / 4))
    [⟨1, 0⟩, ⟨1, ![1 / 2, 0, 0]⟩] [(1, 1 / 4)] rfl rfl rfl
  have hset : ∃ s2 : St, St.set { t1 with
        rSpaceEnergy := some ((St.fresh (Inter.read 1 1 1) (5 / 4)).rSpaceEnergy.getD
          (rSum (St.fresh (Inter.read 1 1 1) (5 / 4)).inter [(1, 1 / 4)])) } "epsilon" 2 = .ok s2 ∧
      s2.kCut = 5 / 4 ∧ s2.hasWaves = false ∧ s2.kSpaceEnergy = none ∧ s2.inter = Inter.read 2 1 1 ∧
      s2.rSpaceEnergy = some (rSum (Inter.read 1 1 1) [(1, 1 / 4)]) := by
    unfold St.set Inter.set
    simp only [i1, String.reduceEq, if_true, if_false, ok_bind]
    exact ⟨_, rfl, c1, rfl, rfl, rfl, rfl⟩
  obtain ⟨s2, hs, hk, hw, he, hi, hr⟩ := hset
  obtain ⟨t3, w3, m3, a3, c3, i3⟩ := key s2 [⟨1, 0⟩, ⟨1, ![1 / 2, 0, 0]⟩] [(1, 1 / 4)] hk hw he
  refine ⟨cube 1, [⟨1, 0⟩, ⟨1, ![1 / 2, 0, 0]⟩], [(1, 1 / 4)], _, s2, _, _, _, _, _, hb, a1, hs, a3, a2, ?_⟩
  have e : w3.waves = w2.waves := by
    rw [(made_of_ok m3).waves, (made_of_ok m2).waves, hi, hk]
    rfl
  rw [e, hr, hi]
  change _ - selfEnergy (Inter.read 2 1 1) _ + _ ≠ _ - selfEnergy (Inter.read 2 1 1) _ + rSum (Inter.read 2 1 1) _
  intro h
  have h' : rSum (Inter.read 1 1 1) [(1, 1 / 4)] = rSum (Inter.read 2 1 1) [(1, 1 / 4)] := add_left_cancel h
  have hq : Real.sqrt 4 = 2 := by rw [show (4 : ℝ) = 2 ^ 2 by norm_num]; exact Real.sqrt_sq (by norm_num)
  have hp := Real.pi_pos
  have h5 := erfc_pos (1 / 2)
  norm_num [rSum, Inter.rEnergy, Inter.read, Inter.derive, hq] at h'
  exact h5.ne' h'

end Verif.Ewald
