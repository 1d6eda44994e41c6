/-
The program follows the algorithm, up to periodic images.
-/
import Verif.Nph.Spec

set_option autoImplicit false
set_option linter.dupNamespace false

namespace Verif.Nph

open Verif.Boundary Verif.Integrate

variable {ι : Type} [DecidableEq ι] {P : Type}

/-- The environment computes the forces `F` and the virial stress `S`, in all cells of
positive size (see `Integrate.World.Exact`): `ok L l p`: the list `l` can be used for
positions `p` in the cell of lengths `L`. While atoms move by `d` from images `z` of their
positions, and then with the cell that gets the lengths `L'`, the list can be used if it
reports to be current, provided `adm L z d L'`. -/
structure Exact (e : Env ι P) (F : Vec → (ι → Vec) → ι → Vec) (S : Vec → (ι → Vec) → Vec)
    (cell : Vec → Set (ι → Vec)) (ok : Vec → P → (ι → Vec) → Prop)
    (adm : Vec → (ι → Vec) → (ι → Vec) → Vec → Prop) : Prop where
  box : ∀ L, (∀ a, 0 < L a) →
    (e.world L).Exact (lattice L) (F L) (cell L) (ok L) fun _ _ => False
  virial : ∀ L l p, (∀ a, 0 < L a) → ok L l p → e.virial L l p = S L p
  periodic : ∀ L p q, (∀ a, 0 < L a) → Image (lattice L) p q → S L q = S L p
  move : ∀ L l p z d L' v f, (∀ a, 0 < L a) → (∀ a, 0 < L' a) → ok L l p →
    Image (lattice L) z p → adm L z d L' →
    Sys.Safe (e.world L') (cell L') (ok L')
      { pos := fun i a => (p i a + d i a) * (L' a / L a), vel := v, force := f, list := l }

/-- Masses of the atoms. -/
def Env.m (e : Env ι P) (i : ι) : ℝ := e.mass (e.typ i)

/-- `setup` has been called. -/
def Nph.Ready (e : Env ι P) (g : Nph) : Prop := ∀ i, g.pref (e.typ i) = g.dt / 2 / e.m i

/-- The state of the program stands for the point `z`. -/
structure Rep (F : Vec → (ι → Vec) → ι → Vec) (ok : Vec → P → (ι → Vec) → Prop) (e : Env ι P)
    (g : Nph) (x : State ι P) (z : Pt ι) : Prop where
  dt : x.nph.dt = g.dt
  W : x.nph.W = g.W
  mode : x.nph.mode = g.mode
  ready : x.nph.Ready e
  eta : x.nph.eta = z.1.2
  cell : g.mode.Pos z.1.1
  L : x.L = g.mode.len z.1.1
  list : ok x.L x.sys.list x.sys.pos
  pos : Image (lattice x.L) (place x.L z.2.1) x.sys.pos
  vel : x.sys.vel = speed x.L z.2.2
  force : x.sys.force = F x.L (place x.L z.2.1)

/-- The kinetic stress. -/
theorem kineticStress_eq [Fintype ι] {e : Env ι P} {L : Vec} (hw : (e.world L).Complete)
    (v : ι → Vec) : e.kineticStress L v = kin e.m L v := by
  funext a
  unfold Env.kineticStress kin World.each
  have h : ∀ (l : List ι) (x : ℝ),
      l.foldl (fun x i => x + v i a * (e.mass (e.typ i) * v i a)) x =
        x + (l.map fun i => e.m i * v i a ^ 2).sum := by
    intro l
    induction l with
    | nil => intro x; simp
    | cons b l ih =>
      intro x
      rw [List.foldl_cons, ih, List.map_cons, List.sum_cons]
      unfold Env.m
      ring
  rw [h, zero_add]
  congr 1
  have hu : (Finset.univ : Finset ι) = (e.world L).atoms.toFinset := by
    ext i
    simp [hw.all i]
  rw [hu, List.sum_toFinset _ hw.nodup]

theorem one_lit : (1.0 : ℝ) = 1 := by norm_num

theorem three_lit : (3.0 : ℝ) = 3 := by norm_num

theorem two_lit : (2.0 : ℝ) = 2 := by norm_num

/-- Half a step of the barostat. -/
theorem pushEta_eta (g : Nph) (extP V : ℝ) (L p : Vec)
    (hV : g.mode ≠ .cubic → V = vol L) :
    (g.pushEta extP V L p).eta = fun a => g.eta a +
      g.dt / 2 * g.mode.force L (fun a => p a - extP) a := by
  unfold Nph.pushEta
  simp only [one_lit, two_lit, three_lit]
  cases hm : g.mode with
  | orthorhombic =>
    have := hV (by simp [hm])
    subst this
    funext a
    fin_cases a <;> simp [Mode.force] <;> ring
  | tetragonal =>
    have := hV (by simp [hm])
    subst this
    funext a
    fin_cases a <;> simp [Mode.force] <;> ring
  | cubic =>
    funext a
    fin_cases a <;> simp [Mode.force] <;> ring

theorem pushEta_rest (g : Nph) (extP V : ℝ) (L p : Vec) :
    (g.pushEta extP V L p).dt = g.dt ∧ (g.pushEta extP V L p).W = g.W ∧
    (g.pushEta extP V L p).mode = g.mode ∧ (g.pushEta extP V L p).pref = g.pref := by
  unfold Nph.pushEta
  cases g.mode <;> exact ⟨rfl, rfl, rfl, rfl⟩

/-- The lengths during and after the step. -/
theorem boxes_eq (g : Nph) {q : Vec} (hq : g.mode.Pos q)
    (hf : g.mode.Pos fun a => q a + g.dt / 2 * (g.mode.c g.W a * g.eta a) +
      g.dt / 2 * (g.mode.c g.W a * g.eta a)) :
    (g.boxes (g.mode.len q)).1 = g.mode.len (fun a => q a + g.dt / 2 * (g.mode.c g.W a * g.eta a)) ∧
    (g.boxes (g.mode.len q)).2.1 = g.mode.len (fun a => q a + g.dt / 2 * (g.mode.c g.W a * g.eta a) +
      g.dt / 2 * (g.mode.c g.W a * g.eta a)) ∧
    (g.boxes (g.mode.len q)).2.2 = vol (g.boxes (g.mode.len q)).2.1 := by
  unfold Nph.boxes
  simp only [one_lit, two_lit, three_lit]
  cases hm : g.mode with
  | orthorhombic =>
    refine ⟨?_, ?_, ?_⟩
    · funext a
      fin_cases a <;> simp [Mode.len, Mode.c] <;> ring
    · funext a
      fin_cases a <;> simp [Mode.len, Mode.c] <;> ring
    · simp [vol]
  | tetragonal =>
    refine ⟨?_, ?_, ?_⟩
    · funext a
      fin_cases a <;> simp [Mode.len, Mode.c] <;> ring
    · funext a
      fin_cases a <;> simp [Mode.len, Mode.c] <;> ring
    · simp [vol]
  | cubic =>
    rw [hm] at hq hf
    have hv := vol_len_cubic hq
    have hv' := vol_len_cubic (q := fun a => q a + g.dt / 2 * (Mode.cubic.c g.W a * g.eta a) +
      g.dt / 2 * (Mode.cubic.c g.W a * g.eta a)) hf
    simp only [hv]
    have e2 : 1 / 2 * g.dt / g.W * g.eta 0 = g.dt / 2 * (Mode.cubic.c g.W 0 * g.eta 0) := by
      simp [Mode.c]; ring
    rw [e2]
    refine ⟨?_, ?_, ?_⟩
    · funext a
      fin_cases a <;> simp [Mode.len]
    · funext a
      fin_cases a <;> simp [Mode.len]
    · have e3 : ∀ t : ℝ, (![t, t, t] : Vec) = fun _ => t := fun t => by
        funext a
        fin_cases a <;> rfl
      rw [e3]
      exact hv'.symm

theorem step1_eq {w : World ι P} (hw : w.Complete) (g : Nph) (L l f : Vec) (s : Sys ι P) :
    g.step1 w L l f s = { s with
      pos := fun i a => (s.pos i a + (s.vel i a + g.pref (w.typ i) * s.force i a) *
        (g.dt * L a * L a / l a / l a)) * (f a / L a)
      vel := fun i a => (s.vel i a + g.pref (w.typ i) * s.force i a) / (f a / L a) } := by
  unfold Nph.step1
  rw [each_eq' (h := fun i t => (fun a => (t.1 a + (t.2.1 a + g.pref (w.typ i) * t.2.2 a) *
      (g.dt * L a * L a / l a / l a)) * (f a / L a),
    fun a => (t.2.1 a + g.pref (w.typ i) * t.2.2 a) / (f a / L a), t.2.2)) hw.nodup
    (fun s i => by simp [Sys.set])]
  simp [Sys.mapOn, hw.all]

theorem step2_eq {w : World ι P} (hw : w.Complete) (g : Nph) (s : Sys ι P) :
    g.step2 w s = { s with vel := fun i => s.vel i + g.pref (w.typ i) • s.force i } := by
  unfold Nph.step2
  rw [each_eq' (h := fun i t => (t.1, t.2.1 + g.pref (w.typ i) • t.2.2, t.2.2)) hw.nodup
    (fun s i => by simp [Sys.set])]
  simp [Sys.mapOn, hw.all]

omit [DecidableEq ι] in
/-- Images in a cell stay images when everything is scaled. -/
theorem image_scale {L f : Vec} (hL : ∀ a, 0 < L a) {p p' : ι → Vec} (h : Image (lattice L) p p')
    (d : ι → Vec) :
    Image (lattice f) (fun i a => (p i a + d i a) * (f a / L a))
      fun i a => (p' i a + d i a) * (f a / L a) := by
  intro i
  obtain ⟨k, hk⟩ := h i
  refine ⟨k, ?_⟩
  funext a
  have := congrFun hk a
  simp only [Pi.sub_apply, latVec] at this ⊢
  have hne := (hL a).ne'
  have : p' i a = p i a + k a * L a := by linarith
  rw [this]
  field_simp
  ring

/-- The displacements of a step, before they are scaled with the cell. -/
noncomputable def Dyn.shift (y : Dyn ι) (dt : ℝ) (z : Pt ι) : ι → Vec := fun i a =>
  y.len z.1.1 a * (dt * ((y.half dt z).2.2 i a /
    (y.len (y.half dt z).1.1 a * y.len (y.half dt z).1.1 a)))

/-- A step that the program can make: the cell has a positive size in its middle and at
its end, and the motion is admissible for the list. -/
structure Good (mode : Mode) (adm : Vec → (ι → Vec) → (ι → Vec) → Vec → Prop) (y : Dyn ι) (dt : ℝ)
    (z : Pt ι) : Prop where
  half : mode.Pos (y.half dt z).1.1
  whole : mode.Pos (y.step dt z).1.1
  adm : adm (y.len z.1.1) (place (y.len z.1.1) z.2.1) (y.shift dt z) (y.len (y.step dt z).1.1)

variable [Fintype ι] {e : Env ι P} {F : Vec → (ι → Vec) → ι → Vec} {S : Vec → (ι → Vec) → Vec}
  {cell : Vec → Set (ι → Vec)} {ok : Vec → P → (ι → Vec) → Prop}
  {adm : Vec → (ι → Vec) → (ι → Vec) → Vec → Prop} {g : Nph}

/-- The system of the program. -/
noncomputable def Env.dyn (e : Env ι P) (F : Vec → (ι → Vec) → ι → Vec)
    (S : Vec → (ι → Vec) → Vec) (g : Nph) : Dyn ι := Nph.dyn g.mode g.W e.pressure e.m F S

/-- **One step of the program is one step of the algorithm.** -/
theorem step_rep (he : Exact e F S cell ok adm) {x : State ι P} {z : Pt ι}
    (h : Rep F ok e g x z) (hg : Good g.mode adm (e.dyn F S g) g.dt z) :
    Rep F ok e g (step e x) ((e.dyn F S g).step g.dt z) := by
  set y := e.dyn F S g with hy
  have hlen : y.len = g.mode.len := rfl
  -- the cell
  have hL : ∀ a, 0 < x.L a := by rw [h.L]; exact Mode.len_pos h.cell
  have hx := he.box x.L hL
  have hr : refresh (e.world x.L) x.sys = x.sys := refresh_ok hx h.list
  -- first half of the barostat
  set z1 := y.push (g.dt / 2) z with hz1
  set g1 := x.nph.pushEta e.pressure (vol x.L) x.L (e.stress x.L x.sys) with hg1
  obtain ⟨hd1, hW1, hm1, hp1⟩ := pushEta_rest x.nph e.pressure (vol x.L) x.L (e.stress x.L x.sys)
  rw [← hg1] at hd1 hW1 hm1 hp1
  rw [h.dt] at hd1
  rw [h.W] at hW1
  rw [h.mode] at hm1
  have hS : S x.L x.sys.pos = S x.L (place x.L z.2.1) := he.periodic _ _ _ hL h.pos
  have heta1 : g1.eta = z1.1.2 := by
    rw [hg1, pushEta_eta _ _ _ _ _ (fun _ => rfl), h.eta, h.dt, h.mode]
    funext a
    have : (fun a => e.stress x.L x.sys a - e.pressure) = fun a =>
        S x.L (place x.L z.2.1) a + kin e.m x.L (speed x.L z.2.2) a - e.pressure := by
      funext b
      unfold Env.stress
      rw [he.virial _ _ _ hL h.list, hS, kineticStress_eq hx.toComplete, h.vel]
    rw [this, hz1]
    unfold Dyn.push
    rw [hlen, ← h.L]
    rfl
  -- lengths
  set z3 := y.half g.dt z with hz3
  set z6 := y.step g.dt z with hz6
  have hz3q : z3.1.1 = fun a => z.1.1 a + g.dt / 2 * (g.mode.c g.W a * g1.eta a) := by
    rw [heta1]; rfl
  have hz6q : z6.1.1 = fun a => z.1.1 a + g.dt / 2 * (g.mode.c g.W a * g1.eta a) +
      g.dt / 2 * (g.mode.c g.W a * g1.eta a) := by
    rw [heta1]; rfl
  have hb := boxes_eq g1 (q := z.1.1) (by rw [hm1]; exact h.cell)
    (by rw [hm1, hW1, hd1, ← hz6q]; exact hg.whole)
  rw [hm1, hW1, hd1, ← hz3q, ← hz6q, ← h.L] at hb
  obtain ⟨hb1, hb2, hb3⟩ := hb
  set f := g.mode.len z6.1.1 with hf
  set l := g.mode.len z3.1.1 with hl
  have hfp : ∀ a, 0 < f a := Mode.len_pos hg.whole
  have hlp : ∀ a, 0 < l a := Mode.len_pos hg.half
  have hw := he.box f hfp
  -- atoms
  set s1 := g1.step1 (e.world f) x.L l f x.sys with hs1
  have hs1e := step1_eq hw.toComplete g1 x.L l f x.sys
  rw [← hs1, hp1, hd1] at hs1e
  have hpref : ∀ i, x.nph.pref ((e.world f).typ i) = g.dt / 2 / e.m i := fun i => by
    have := h.ready i
    rwa [h.dt] at this
  have hv1 : ∀ i a, x.sys.vel i a + x.nph.pref ((e.world f).typ i) * x.sys.force i a =
      z3.2.2 i a / x.L a := by
    intro i a
    rw [hpref, h.vel, h.force, hz3]
    simp only [Dyn.half, Dyn.grow, Dyn.kick, Dyn.push, hlen, ← h.L, speed]
    have hne := (hL a).ne'
    change _ = (z.2.2 i a + g.dt / 2 / e.m i * (x.L a * F x.L (place x.L z.2.1) i a)) / x.L a
    field_simp
  have hdisp : (fun i a => (x.sys.vel i a + x.nph.pref ((e.world f).typ i) * x.sys.force i a) *
      (g.dt * x.L a * x.L a / l a / l a)) = y.shift g.dt z := by
    funext i a
    rw [hv1]
    unfold Dyn.shift
    rw [hlen, ← h.L, ← hz3, ← hl]
    have hne := (hL a).ne'
    have hne' := (hlp a).ne'
    field_simp
  have hpos1 : s1.pos = fun i a => (x.sys.pos i a + y.shift g.dt z i a) * (f a / x.L a) := by
    rw [hs1e, ← hdisp]
  have hvel1 : s1.vel = speed f z3.2.2 := by
    rw [hs1e]
    funext i a
    dsimp only
    rw [hv1]
    have hne := (hL a).ne'
    have hne' := (hfp a).ne'
    unfold speed
    field_simp
  have hsafe : s1.Safe (e.world f) (cell f) (ok f) := by
    have := he.move x.L x.sys.list x.sys.pos _ _ f s1.vel s1.force hL hfp h.list h.pos
      (by have := hg.adm; rw [hlen, ← h.L] at this; exact this)
    have e1 : s1 = { pos := fun i a => (x.sys.pos i a + y.shift g.dt z i a) * (f a / x.L a)
                     vel := s1.vel, force := s1.force, list := x.sys.list } := by
      rw [← hpos1]
      conv_lhs => rw [hs1e]
      rw [hs1e]
    rw [e1]
    exact this
  obtain ⟨hok2, him2, hvel2, _⟩ := refresh_spec hw hsafe
  set s2 := refresh (e.world f) s1 with hs2
  have hplace : place f z6.2.1 = fun i a => (place x.L z.2.1 i a + y.shift g.dt z i a) *
      (f a / x.L a) := by
    funext i a
    have : z6.2.1 i a = z.2.1 i a + g.dt * (z3.2.2 i a / (l a * l a)) := rfl
    unfold place Dyn.shift
    rw [this, hlen, ← h.L, ← hz3, ← hl]
    have hne := (hL a).ne'
    field_simp
  have him1 : Image (lattice f) (place f z6.2.1) s1.pos := by
    rw [hplace, hpos1]
    exact image_scale hL h.pos _
  have him : Image (lattice f) (place f z6.2.1) s2.pos := him1.trans him2
  have hF : F f s2.pos = F f (place f z6.2.1) := hw.periodic _ _ him
  have hcf := calculateForces_ok hw hok2
  set s3 := calculateForces (e.world f) s2 with hs3
  set s4 := g1.step2 (e.world f) s3 with hs4
  have hs4e := step2_eq hw.toComplete g1 s3
  rw [← hs4, hp1] at hs4e
  have hs4p : s4.pos = s2.pos := by rw [hs4e, hcf]
  have hs4l : s4.list = s2.list := by rw [hs4e, hcf]
  have hs4f : s4.force = F f (place f z6.2.1) := by rw [hs4e, hcf, ← hF]
  have hs4v : s4.vel = speed f z6.2.2 := by
    rw [hs4e, hcf]
    funext i a
    have : z6.2.2 i a = z3.2.2 i a +
        g.dt / 2 / e.m i * (f a * F f (place f z6.2.1) i a) := rfl
    simp only [Pi.add_apply, Pi.smul_apply, smul_eq_mul]
    rw [hvel2, hvel1, hF, hpref]
    unfold speed
    rw [this]
    have hne := (hfp a).ne'
    field_simp
  have hok4 : ok f s4.list s4.pos := by rw [hs4p, hs4l]; exact hok2
  have hr4 : refresh (e.world f) s4 = s4 := refresh_ok hw hok4
  -- second half of the barostat
  set g2 := g1.pushEta e.pressure (vol f) f (e.stress f s4) with hg2
  obtain ⟨hd2, hW2, hm2, hp2⟩ := pushEta_rest g1 e.pressure (vol f) f (e.stress f s4)
  rw [← hg2] at hd2 hW2 hm2 hp2
  have heta2 : g2.eta = z6.1.2 := by
    rw [hg2, pushEta_eta _ _ _ _ _ (fun _ => rfl), heta1, hd1, hm1]
    funext a
    have e1 : (fun a => e.stress f s4 a - e.pressure) = fun a =>
        S f (place f z6.2.1) a + kin e.m f (speed f z6.2.2) a - e.pressure := by
      funext b
      unfold Env.stress
      rw [he.virial _ _ _ hfp hok4, he.periodic _ _ _ hfp (hs4p ▸ him),
        kineticStress_eq hw.toComplete, hs4v]
    rw [e1]
    rfl
  have hstep : step e x = { nph := g2, L := f, sys := s4 } := by
    unfold step
    rw [hr]
    dsimp only
    rw [← hg1, hb1, hb3, hb2, ← hs1, ← hs2, ← hs3, ← hs4, hr4, ← hg2, hr4]
  rw [hstep]
  refine ⟨?_, ?_, ?_, ?_, heta2, hg.whole, rfl, hok4, ?_, hs4v, hs4f⟩
  · exact hd2.trans hd1
  · exact hW2.trans hW1
  · exact hm2.trans hm1
  · intro i
    change g2.pref _ = g2.dt / 2 / _
    rw [hp2, hp1, hd2, hd1]
    exact hpref i
  · change Image (lattice f) (place f z6.2.1) s4.pos
    rw [hs4p]
    exact him

omit [Fintype ι] in
theorem shiftAtoms_rep (he : Exact e F S cell ok adm) {x : State ι P} {z : Pt ι}
    (h : Rep F ok e g x z) :
    Rep F ok e g { x with sys := shiftAtoms (e.world x.L) x.sys } z := by
  have hL : ∀ a, 0 < x.L a := by rw [h.L]; exact Mode.len_pos h.cell
  have hw := he.box x.L hL
  rw [shiftAtoms_eq hw.toComplete]
  exact ⟨h.dt, h.W, h.mode, h.ready, h.eta, h.cell, h.L, hw.wrap _ _ h.list,
    h.pos.trans fun i => hw.shift _, h.vel, h.force⟩

/-- `n` steps that the program can make. -/
def GoodRun (mode : Mode) (adm : Vec → (ι → Vec) → (ι → Vec) → Vec → Prop) (y : Dyn ι) (dt : ℝ)
    (n : ℕ) (z : Pt ι) : Prop := ∀ k < n, Good mode adm y dt ((y.step dt)^[k] z)

theorem mainLoop_rep (he : Exact e F S cell ok adm) (shifts : ℕ → Bool) (n : ℕ) :
    ∀ (i : ℕ) {x : State ι P} {z : Pt ι}, Rep F ok e g x z →
      GoodRun g.mode adm (e.dyn F S g) g.dt n z →
      Rep F ok e g (mainLoop e shifts i n x) (((e.dyn F S g).step g.dt)^[n] z) := by
  induction n with
  | zero => exact fun i x z h _ => shiftAtoms_rep he h
  | succ n ih =>
    intro i x z h hg
    have h0 := hg 0 (by omega)
    have hs : GoodRun g.mode adm (e.dyn F S g) g.dt n ((e.dyn F S g).step g.dt z) := fun k hk => by
      have := hg (k + 1) (by omega)
      rwa [Function.iterate_succ_apply] at this
    rw [mainLoop, Function.iterate_succ_apply]
    split
    · exact ih _ (step_rep he (shiftAtoms_rep he h) h0) hs
    · exact ih _ (step_rep he h h0) hs

/-- The point that the state of the program before a simulation stands for. -/
noncomputable def State.pt (x : State ι P) : Pt ι :=
  ((x.nph.mode.coord x.L, x.nph.eta),
    (fun i a => x.sys.pos i a / x.L a, fun i a => x.sys.vel i a * x.L a))

/-- States from which a simulation can be started. -/
structure State.Start (e : Env ι P) (cell : Vec → Set (ι → Vec))
    (ok : Vec → P → (ι → Vec) → Prop) (x : State ι P) : Prop where
  pos : ∀ a, 0 < x.L a
  shape : x.nph.mode.Shape x.L
  safe : (shiftAtoms (e.world x.L) x.sys).Safe (e.world x.L) (cell x.L) (ok x.L)

omit [Fintype ι] [DecidableEq ι] in
theorem place_pt {x : State ι P} (hL : ∀ a, 0 < x.L a) : place x.L x.pt.2.1 = x.sys.pos := by
  funext i a
  have := (hL a).ne'
  simp only [place, State.pt]
  field_simp

omit [Fintype ι] [DecidableEq ι] in
theorem speed_pt {x : State ι P} (hL : ∀ a, 0 < x.L a) : speed x.L x.pt.2.2 = x.sys.vel := by
  funext i a
  have := (hL a).ne'
  simp only [speed, State.pt]
  field_simp

/-- The state of the program before a simulation stands for the point `z`, up to periodic
images. -/
structure State.At (x : State ι P) (z : Pt ι) : Prop where
  eta : x.nph.eta = z.1.2
  cell : x.nph.mode.Pos z.1.1
  L : x.L = x.nph.mode.len z.1.1
  pos : Image (lattice x.L) (place x.L z.2.1) x.sys.pos
  vel : x.sys.vel = speed x.L z.2.2

omit [Fintype ι] [DecidableEq ι] in
theorem State.at_pt {x : State ι P} (hp : ∀ a, 0 < x.L a) (hs : x.nph.mode.Shape x.L) :
    x.At x.pt where
  eta := rfl
  cell := Mode.pos_coord hp
  L := (Mode.len_coord hs hp).symm
  pos := by rw [place_pt hp]; exact Image.refl _ _
  vel := (speed_pt hp).symm

/-- A simulation of `n` steps. -/
theorem simulate_at (he : Exact e F S cell ok adm) (shifts : ℕ → Bool) (n : ℕ) {x : State ι P}
    {z : Pt ι} (hx : x.At z)
    (hs : (shiftAtoms (e.world x.L) x.sys).Safe (e.world x.L) (cell x.L) (ok x.L))
    (hg : GoodRun x.nph.mode adm (e.dyn F S x.nph) x.nph.dt n z) :
    Rep F ok e x.nph (simulate e shifts n x) (((e.dyn F S x.nph).step x.nph.dt)^[n] z) := by
  unfold simulate
  refine mainLoop_rep he shifts n 0 ?_ hg
  have hL : ∀ a, 0 < x.L a := by rw [hx.L]; exact Mode.len_pos hx.cell
  have hw := he.box x.L hL
  obtain ⟨h1, h2, h3, h4⟩ := start_rep hw hs
  refine ⟨rfl, rfl, rfl, ?_, hx.eta, hx.cell, hx.L, h1, hx.pos.trans h2, h3.trans hx.vel, ?_⟩
  · exact fun i => prefactors_eq hw _ _ i
  · exact h4.trans (hw.periodic _ _ hx.pos)

theorem simulate_rep (he : Exact e F S cell ok adm) (shifts : ℕ → Bool) (n : ℕ) {x : State ι P}
    (hx : x.Start e cell ok)
    (hg : GoodRun x.nph.mode adm (e.dyn F S x.nph) x.nph.dt n x.pt) :
    Rep F ok e x.nph (simulate e shifts n x) (((e.dyn F S x.nph).step x.nph.dt)^[n] x.pt) :=
  simulate_at he shifts n (State.at_pt hx.pos hx.shape) hx.safe hg

/-- The state with all velocities reversed. -/
def State.back (x : State ι P) : State ι P :=
  { x with nph := { x.nph with eta := fun a => -x.nph.eta a }
           sys := { x.sys with vel := fun i a => -x.sys.vel i a } }

omit [Fintype ι] in
theorem Rep.back (he : Exact e F S cell ok adm) {x : State ι P} {z : Pt ι}
    (h : Rep F ok e g x z) :
    x.back.At (turn z) ∧
    (shiftAtoms (e.world x.back.L) x.back.sys).Safe (e.world x.back.L) (cell x.back.L)
      (ok x.back.L) := by
  have hL : ∀ a, 0 < x.L a := by rw [h.L]; exact Mode.len_pos h.cell
  have hw := he.box x.L hL
  refine ⟨⟨?_, ?_, ?_, h.pos, ?_⟩, ?_⟩
  · change (fun a => -x.nph.eta a) = fun a => -z.1.2 a
    rw [h.eta]
  · change x.nph.mode.Pos z.1.1
    rw [h.mode]
    exact h.cell
  · change x.L = x.nph.mode.len z.1.1
    rw [h.mode]
    exact h.L
  · change (fun i a => -x.sys.vel i a) = speed x.L fun i a => -z.2.2 i a
    rw [speed_neg, h.vel]
  · change (shiftAtoms (e.world x.L) { x.sys with vel := _ }).Safe (e.world x.L) (cell x.L) (ok x.L)
    rw [shiftAtoms_eq hw.toComplete]
    have := hw.wrap _ _ h.list
    exact ⟨fun _ => this, hw.ready _ _ this⟩

end Verif.Nph
