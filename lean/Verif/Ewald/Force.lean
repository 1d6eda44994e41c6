import Verif.Ewald.Energy
import Verif.Pair.Force
import Mathlib.Analysis.SpecialFunctions.Trigonometric.Deriv
import Mathlib.Analysis.Calculus.Deriv.Mul
import Mathlib.Analysis.Calculus.Deriv.Add

/-! # Ewald summation: forces -/

set_option autoImplicit false

namespace Verif.Ewald

open Verif.Boundary Verif.Cpp Verif.Cpp.Out

theorem fexp_get (x : ℝ) (base : ℤ) (n : ℕ) {k : ℤ} (h : 0 ≤ k - base ∧ k - base < n) :
    at? (fexp x base n) (k - base) = .ok (Complex.exp ((2 * Real.pi * x * k : ℝ) * Complex.I)) := by
  unfold at? fexp
  have hl : (k - base).toNat < n := by omega
  have e : ∀ (m : ℕ) (z d : ℂ), (fun z => z * d)^[m] z = z * d ^ m := by
    intro m
    induction m with
    | zero => intro z d; simp
    | succ m ih => intro z d; rw [Function.iterate_succ_apply, ih, pow_succ]; ring
  rw [if_pos h.1, List.getElem?_eq_getElem (by rw [List.length_iterate]; exact hl)]
  simp only [List.getElem_iterate, e]
  rw [← Complex.exp_nat_mul, ← Complex.exp_add]
  congr 2
  have : ((k - base).toNat : ℂ) = (k : ℂ) - base := by
    have h3 : ((k - base).toNat : ℤ) = k - base := Int.toNat_of_nonneg h.1
    have h4 : (((k - base).toNat : ℤ) : ℂ) = ((k - base : ℤ) : ℂ) := by rw [h3]
    push_cast at h4; exact h4
  rw [this]; push_cast; ring

/-- The scalar factor of one wave in the force on an atom. -/
noncomputable def amp (b : Box) (atoms : List Atom) (r : Vec) (w : Wave) : ℝ :=
  w.g * (Real.cos (dot (b.wave w.k) r) * (factor atoms (b.wave w.k)).im -
    Real.sin (dot (b.wave w.k) r) * (factor atoms (b.wave w.k)).re)

/-- Sum over waves of the force on an atom. -/
noncomputable def kForce (b : Box) (waves : List Wave) (atoms : List Atom) (a : Atom) : Vec :=
  (waves.map fun w => (-2 * a.q / b.volume * amp b atoms a.r w) • b.wave w.k).sum

theorem waveForce_eq {b : Box} (hb : b.OK) {s : St} (hs : s.Indexed) (atoms : List Atom) (r : Vec)
    {w : Wave} (hw : w ∈ s.waves) :
    waveForce s (fexp (b.gen r 0) s.base0 s.n0) (fexp (b.gen r 1) s.base1 s.n1)
      (fexp (b.gen r 2) s.base2 s.n2) w (factor atoms (b.wave w.k)) =
      .ok fun j => (w.k j : ℝ) * amp b atoms r w := by
  unfold waveForce
  rw [fexp_get _ _ _ (hs.b0 w hw), fexp_get _ _ _ (hs.b1 w hw), fexp_get _ _ _ (hs.b2 w hw)]
  simp only [ok_bind]
  have e : Complex.exp ((2 * Real.pi * b.gen r 0 * w.k 0 : ℝ) * Complex.I) *
      Complex.exp ((2 * Real.pi * b.gen r 1 * w.k 1 : ℝ) * Complex.I) *
      Complex.exp ((2 * Real.pi * b.gen r 2 * w.k 2 : ℝ) * Complex.I) =
      Complex.exp ((dot (b.wave w.k) r : ℝ) * Complex.I) := by
    rw [← Complex.exp_add, ← Complex.exp_add, ← phase_eq hb]
    congr 1; push_cast; ring
  rw [e, Complex.exp_ofReal_mul_I_re, Complex.exp_ofReal_mul_I_im]
  rfl

theorem waveLoop_eq {b : Box} (hb : b.OK) {s : St} (hs : s.Indexed) (atoms : List Atom) (r : Vec)
    (l : List Wave) (hl : ∀ w ∈ l, w ∈ s.waves) : ∀ fg : Vec,
    waveLoop s (fexp (b.gen r 0) s.base0 s.n0) (fexp (b.gen r 1) s.base1 s.n1)
      (fexp (b.gen r 2) s.base2 s.n2) (l.map fun w => (w, factor atoms (b.wave w.k))) fg =
      .ok (fg + (l.map fun w => (fun j => (w.k j : ℝ) * amp b atoms r w : Vec)).sum) := by
  induction l with
  | nil => intro fg; simp [waveLoop]
  | cons w l ih =>
    intro fg
    rw [List.map_cons, waveLoop, waveForce_eq hb hs atoms r (hl w (by simp)), ok_bind,
      ih (fun x hx => hl x (by simp [hx]))]
    simp [add_assoc]

theorem listSum_apply {α : Type} (l : List α) (f : α → Vec) (j : Fin 3) :
    (l.map f).sum j = (l.map fun x => f x j).sum := by
  induction l with
  | nil => simp
  | cons a l ih => simp [ih]

theorem toCart_sum (b : Box) (l : List Wave) (f : Wave → ℝ) (c : ℝ) :
    ((l.map fun w => (fun j => (w.k j : ℝ) * f w : Vec)).sum 0 * c) • b.reciprocal 0 +
    ((l.map fun w => (fun j => (w.k j : ℝ) * f w : Vec)).sum 1 * c) • b.reciprocal 1 +
    ((l.map fun w => (fun j => (w.k j : ℝ) * f w : Vec)).sum 2 * c) • b.reciprocal 2 =
      (l.map fun w => (c * f w) • b.wave w.k).sum := by
  induction l with
  | nil => simp
  | cons w l ih =>
    simp only [List.map_cons, List.sum_cons, Pi.add_apply]
    rw [← ih]
    unfold Box.wave latComb
    module

/-- The force on one atom. -/
theorem atomForce_eq {b : Box} (hb : b.OK) {s : St} (hs : s.Indexed) (atoms : List Atom) (a : Atom)
    (f : Vec) : atomForce b s (s.waves.map fun w => factor atoms (b.wave w.k)) a f =
      .ok (if |a.q| > 1 / 10 ^ 10 then f + kForce b s.waves atoms a else f) := by
  unfold atomForce
  split
  · rw [zip_map_self]
    simp only
    rw [waveLoop_eq hb hs atoms a.r s.waves (fun _ h => h)]
    simp only [ok_bind]
    have z : (fun _ => 0 : Vec) = 0 := rfl
    rw [z, zero_add, add_assoc f, add_assoc f, toCart_sum]
    rfl
  · rfl

theorem forceLoop_eq {b : Box} (hb : b.OK) {s : St} (hs : s.Indexed) (atoms : List Atom)
    (l : List (Atom × Vec)) :
    forceLoop b s (s.waves.map fun w => factor atoms (b.wave w.k)) l =
      .ok (l.map fun p => if |p.1.q| > 1 / 10 ^ 10 then p.2 + kForce b s.waves atoms p.1 else p.2) := by
  induction l with
  | nil => rfl
  | cons p l ih =>
    obtain ⟨a, f⟩ := p
    rw [forceLoop, atomForce_eq hb hs, ok_bind, ih]
    rfl

theorem addForces_has {b : Box} (hb : b.OK) {s : St} (h : s.hasWaves = true) (hs : s.Indexed)
    (atoms : List Atom) (forces : List Vec) :
    s.addForces b atoms forces = .ok (s, (atoms.zip forces).map fun p =>
      if |p.1.q| > 1 / 10 ^ 10 then p.2 + kForce b s.waves atoms p.1 else p.2) := by
  unfold St.addForces
  rw [charge_has hb h, ok_bind]
  simp only
  rw [forceLoop_eq hb hs]
  rfl

/-! ## The gradient of the energy -/

theorem factor_append (l l' : List Atom) (k : Vec) :
    factor (l ++ l') k = factor l k + factor l' k := by
  simp [factor]

theorem factor_cons (a : Atom) (l : List Atom) (k : Vec) :
    factor (a :: l) k = (a.q : ℂ) * Complex.exp ((dot k a.r : ℝ) * Complex.I) + factor l k := by
  simp [factor]

theorem dot_line (k r v : Vec) (t : ℝ) : dot k (r + t • v) = dot k r + t * dot k v := by
  simp [dot]; ring

theorem hasDerivAt_mode (l l' : List Atom) (q : ℝ) (r v k : Vec) :
    HasDerivAt (fun t : ℝ => Complex.normSq (factor (l ++ ⟨q, r + t • v⟩ :: l') k))
      (2 * q * (Real.cos (dot k r) * (factor (l ++ ⟨q, r⟩ :: l') k).im -
        Real.sin (dot k r) * (factor (l ++ ⟨q, r⟩ :: l') k).re) * dot k v) 0 := by
  set c : ℂ := factor l k + factor l' k with hc
  have e : ∀ x : Vec, factor (l ++ ⟨q, x⟩ :: l') k = c + (q : ℂ) * Complex.exp ((dot k x : ℝ) * Complex.I) := by
    intro x; rw [factor_append, factor_cons, hc]; ring
  have hre : ∀ x : Vec, (factor (l ++ ⟨q, x⟩ :: l') k).re = c.re + q * Real.cos (dot k x) := by
    intro x; rw [e, Complex.add_re, Complex.re_ofReal_mul, Complex.exp_ofReal_mul_I_re]
  have him : ∀ x : Vec, (factor (l ++ ⟨q, x⟩ :: l') k).im = c.im + q * Real.sin (dot k x) := by
    intro x; rw [e, Complex.add_im, Complex.im_ofReal_mul, Complex.exp_ofReal_mul_I_im]
  simp only [Complex.normSq_apply, hre, him, dot_line]
  have hl : HasDerivAt (fun t : ℝ => dot k r + t * dot k v) (dot k v) 0 := by
    simpa using ((hasDerivAt_id (0 : ℝ)).mul_const (dot k v)).const_add (dot k r)
  have h1 := ((hl.cos).const_mul q).const_add c.re
  have h2 := ((hl.sin).const_mul q).const_add c.im
  refine ((h1.mul h1).add (h2.mul h2)).congr_deriv ?_
  simp only [zero_mul, add_zero]
  ring

theorem hasDerivAt_listSum {α : Type} (l : List α) (f : α → ℝ → ℝ) (f' : α → ℝ) (x : ℝ)
    (h : ∀ a ∈ l, HasDerivAt (f a) (f' a) x) :
    HasDerivAt (fun t => (l.map fun a => f a t).sum) (l.map f').sum x := by
  induction l with
  | nil => simpa using hasDerivAt_const x (0 : ℝ)
  | cons a l ih =>
    simp only [List.map_cons, List.sum_cons]
    exact (h a (by simp)).add (ih fun a ha => h a (by simp [ha]))

theorem dot_listSum {α : Type} (l : List α) (c : α → ℝ) (f : α → Vec) (v : Vec) :
    dot ((l.map fun x => c x • f x).sum) v = (l.map fun x => c x * dot (f x) v).sum := by
  induction l with
  | nil => simp [dot]
  | cons a l ih =>
    simp only [List.map_cons, List.sum_cons, ← ih]
    simp [dot]; ring

theorem selfEnergy_move (i : Inter) (l l' : List Atom) (q : ℝ) (r r' : Vec) :
    selfEnergy i (l ++ ⟨q, r⟩ :: l') = selfEnergy i (l ++ ⟨q, r'⟩ :: l') := by
  simp [selfEnergy]

/-- The k-space force is minus the gradient of the k-space energy. -/
theorem hasDerivAt_kEnergy (b : Box) (i : Inter) (waves : List Wave) (l l' : List Atom) (q : ℝ)
    (r v : Vec) :
    HasDerivAt (fun t : ℝ => waveSum b waves (l ++ ⟨q, r + t • v⟩ :: l') / b.volume -
        selfEnergy i (l ++ ⟨q, r + t • v⟩ :: l'))
      (-(dot (kForce b waves (l ++ ⟨q, r⟩ :: l') ⟨q, r⟩) v)) 0 := by
  have h1 : HasDerivAt (fun t : ℝ => waveSum b waves (l ++ ⟨q, r + t • v⟩ :: l'))
      (waves.map fun w => 2 * q * amp b (l ++ ⟨q, r⟩ :: l') r w * dot (b.wave w.k) v).sum 0 := by
    unfold waveSum
    refine hasDerivAt_listSum waves (fun w t =>
      Complex.normSq (factor (l ++ ⟨q, r + t • v⟩ :: l') (b.wave w.k)) * w.g) _ 0 ?_
    intro w _
    refine ((hasDerivAt_mode l l' q r v (b.wave w.k)).mul_const w.g).congr_deriv ?_
    unfold amp; ring
  have e : (fun t : ℝ => waveSum b waves (l ++ ⟨q, r + t • v⟩ :: l') / b.volume -
        selfEnergy i (l ++ ⟨q, r + t • v⟩ :: l')) =
      fun t : ℝ => waveSum b waves (l ++ ⟨q, r + t • v⟩ :: l') / b.volume -
        selfEnergy i (l ++ ⟨q, r⟩ :: l') := by
    funext t; rw [selfEnergy_move]
  rw [e]
  refine ((h1.div_const b.volume).sub_const _).congr_deriv ?_
  unfold kForce
  rw [dot_listSum]
  generalize waves = ws
  induction ws with
  | nil => simp
  | cons w ws ih =>
    simp only [List.map_cons, List.sum_cons, add_div, neg_add]
    rw [ih]; ring

/-! ## No net force -/

theorem factor_re (atoms : List Atom) (k : Vec) :
    (factor atoms k).re = (atoms.map fun a => a.q * Real.cos (dot k a.r)).sum := by
  induction atoms with
  | nil => simp [factor]
  | cons a l ih =>
    rw [factor_cons, Complex.add_re, Complex.re_ofReal_mul, Complex.exp_ofReal_mul_I_re, ih]; simp

theorem factor_im (atoms : List Atom) (k : Vec) :
    (factor atoms k).im = (atoms.map fun a => a.q * Real.sin (dot k a.r)).sum := by
  induction atoms with
  | nil => simp [factor]
  | cons a l ih =>
    rw [factor_cons, Complex.add_im, Complex.im_ofReal_mul, Complex.exp_ofReal_mul_I_im, ih]; simp

theorem sum_lin (l : List Atom) (k : Vec) (x y : ℝ) :
    (l.map fun a => a.q * (Real.cos (dot k a.r) * y - Real.sin (dot k a.r) * x)).sum =
      (l.map fun a => a.q * Real.cos (dot k a.r)).sum * y -
      (l.map fun a => a.q * Real.sin (dot k a.r)).sum * x := by
  induction l with
  | nil => simp
  | cons a l ih => simp only [List.map_cons, List.sum_cons, ih]; ring

/-- The k-space forces on all atoms add up to zero. -/
theorem kForce_sum (b : Box) (waves : List Wave) (atoms : List Atom) :
    (atoms.map fun a => kForce b waves atoms a).sum = 0 := by
  have key : ∀ w : Wave, (atoms.map fun a => a.q * amp b atoms a.r w).sum = 0 := by
    intro w
    have h := sum_lin atoms (b.wave w.k) (factor atoms (b.wave w.k)).re (factor atoms (b.wave w.k)).im
    rw [← factor_re, ← factor_im] at h
    have e : (atoms.map fun a => a.q * amp b atoms a.r w).sum = w.g * (atoms.map fun a => a.q *
        (Real.cos (dot (b.wave w.k) a.r) * (factor atoms (b.wave w.k)).im -
          Real.sin (dot (b.wave w.k) a.r) * (factor atoms (b.wave w.k)).re)).sum := by
      unfold amp
      rw [← List.sum_map_mul_left]
      congr 1
      refine List.map_congr_left fun a _ => ?_
      ring
    rw [e, h]; ring
  have gen : ∀ (l : List Atom) (ws : List Wave),
      (l.map fun a => (ws.map fun w => (-2 * a.q / b.volume * amp b atoms a.r w) • b.wave w.k).sum).sum
        = (ws.map fun w => (-2 / b.volume * (l.map fun a => a.q * amp b atoms a.r w).sum) •
          b.wave w.k).sum := by
    intro l ws
    induction l with
    | nil => simp
    | cons a l ih =>
      simp only [List.map_cons, List.sum_cons]
      rw [ih]
      clear ih
      induction ws with
      | nil => simp
      | cons w ws ih2 =>
        simp only [List.map_cons, List.sum_cons]
        rw [← ih2]
        module
  unfold kForce
  rw [gen]
  simp [key]

end Verif.Ewald
