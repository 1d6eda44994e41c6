/-
Integrators, the header of a simulation and the potentials of a system: what is saved is
restored, with the exceptions found.
-/
import Verif.Restart.Integrators

set_option autoImplicit false

namespace Verif.Restart

open Verif.Cpp Verif.Cpp.Out Verif.Boundary

/-- **C67**: the integrators of mcMd, except the Langevin integrator, are restored with all
their variables, and what follows in the archive is left. -/
theorem C67_mcMd_integrators (r : List Tok) :
    (∀ g : NveVv, g.pref ≠ [] → NveVv.load g.pref.length (g.save ++ r) = ok (g, r)) ∧
    (∀ g : NvtNh, NvtNh.load (g.save ++ r) = ok (g, r)) ∧
    (∀ (g : DpdVv) (maxCut : ℝ), g.cutoff ≤ maxCut → DpdVv.load maxCut (g.save ++ r) = ok (g, r)) ∧
    ∀ g : McNph, McNph.load (g.save ++ r) = ok (g, r) := by
  refine ⟨fun g hg => ?_, fun g => ?_, fun g maxCut hc => ?_, fun g => ?_⟩
  · unfold NveVv.load NveVv.save
    simp only [List.cons_append, List.nil_append, getDbl_put, ok_bind]
    rw [getArr_put getDbl_putDbl _ hg, ok_bind]
  · unfold NvtNh.load NvtNh.save
    simp only [List.cons_append, List.nil_append, getDbl_put, ok_bind]
    rw [getNew_put getDbl_putDbl, ok_bind]
  · unfold DpdVv.load DpdVv.save
    simp only [List.append_assoc, List.cons_append, List.nil_append, getDbl_put, getInt_put, ok_bind,
      check_true hc]
    rw [getNew_put getDbl_putDbl, ok_bind]
    dsimp only
    rw [getNew_put getVec_put, ok_bind]
    dsimp only
    rw [getNew_put getVec_put, ok_bind]
  · unfold McNph.load McNph.save
    simp only [List.append_assoc, List.cons_append, List.nil_append, getDbl_put, getInt_put, ok_bind,
      getVec_put]
    rw [getNew_put getDbl_putDbl, ok_bind]

/-- The interval between restart files is one that `readParameters` accepts, and the name of
the file is the initial one if no files are to be written. -/
structure Base.OK (base : ℤ) (name : String) (g : Base) : Prop where
  interval : g.saveInterval > 0 → base > 0 ∧ g.saveInterval.tmod base = 0
  name : ¬ g.saveInterval > 0 → g.saveFileName = name

theorem Base.load_save {base : ℤ} {name : String} {g : Base} (hg : g.OK base name) (r : List Tok) :
    Base.load base name (g.save ++ r) = ok (g, r) := by
  unfold Base.load Base.save
  by_cases h : g.saveInterval > 0
  · obtain ⟨h1, h2⟩ := hg.interval h
    simp only [List.cons_append, List.nil_append, getInt_put, ok_bind, if_pos h,
      check_true h1, check_true h2, getStr_put, getBool_put]
  · simp only [List.cons_append, List.nil_append, getInt_put, ok_bind, if_neg h, getBool_put,
      ← hg.name h]

/-- **C67**: the integrators of ddMd, except the Langevin integrator, are restored with the
number of the step, the thermostat and the barostat variables. -/
theorem C67_ddMd_integrators (base : ℤ) (name : String) (r : List Tok) :
    (∀ g : DdNve, g.base.OK base name → DdNve.load base name (g.save ++ r) = ok (g, r)) ∧
    (∀ g : DdNvt, g.base.OK base name → DdNvt.load base name (g.save ++ r) = ok (g, r)) ∧
    (∀ g : DdNpt, g.base.OK base name → DdNpt.load base name (g.save ++ r) = ok (g, r)) ∧
    ∀ g : DdNph, g.base.OK base name → DdNph.load base name (g.save ++ r) = ok (g, r) := by
  refine ⟨fun g hg => ?_, fun g hg => ?_, fun g hg => ?_, fun g hg => ?_⟩
  · unfold DdNve.load DdNve.save
    simp only [List.cons_append, List.nil_append, getDbl_put, ok_bind,
      Base.load_save hg]
  · unfold DdNvt.load DdNvt.save
    simp only [List.append_assoc, List.cons_append, List.nil_append, getDbl_put, ok_bind,
      Base.load_save hg]
  · unfold DdNpt.load DdNpt.save
    simp only [List.append_assoc, List.cons_append, List.nil_append, getDbl_put, getInt_put, ok_bind,
      Base.load_save hg, getVec_put]
  · unfold DdNph.load DdNph.save
    simp only [List.append_assoc, List.cons_append, List.nil_append, getDbl_put, getInt_put, ok_bind,
      Base.load_save hg, getVec_put]

/-- **C67, violated**: the Langevin integrators are not restored. Loading an archive written
by the same integrator fails, for all values; and from whatever archive it is loaded, the
friction coefficient is the one the object had before. -/
theorem C67_langevin_violated :
    (∀ (n : ℤ) (g g0 : McLangevin) (r : List Tok) (x : McLangevin × List Tok),
      McLangevin.load n g0 (g.save ++ r) ≠ ok x) ∧
    (∀ (n : ℤ) (g0 : McLangevin) (r : List Tok) (x : McLangevin × List Tok),
      McLangevin.load n g0 r = ok x → x.1.gamma = g0.gamma) ∧
    (∀ (base : ℤ) (name : String) (g g0 : DdLangevin) (r : List Tok) (x : DdLangevin × List Tok),
      DdLangevin.load base name g0 (g.save ++ r) ≠ ok x) ∧
    ∀ (base : ℤ) (name : String) (g0 : DdLangevin) (r : List Tok) (x : DdLangevin × List Tok),
      DdLangevin.load base name g0 r = ok x → x.1.gamma = g0.gamma := by
  refine ⟨fun n g g0 r x h => ?_, fun n g0 r x h => ?_, fun base name g g0 r x h => ?_,
    fun base name g0 r x h => ?_⟩
  · unfold McLangevin.load McLangevin.save getArr at h
    simp only [List.append_assoc, List.cons_append, List.nil_append, getDbl_put, ok_bind] at h
    obtain ⟨_, hb, _⟩ := bind_eq_ok.1 h
    obtain ⟨_, _, hb⟩ := bind_eq_ok.1 hb
    obtain ⟨_, hb, _⟩ := bind_eq_ok.1 hb
    simp [getInt] at hb
  · unfold McLangevin.load at h
    obtain ⟨_, _, h⟩ := bind_eq_ok.1 h
    obtain ⟨_, _, h⟩ := bind_eq_ok.1 h
    obtain ⟨_, _, h⟩ := bind_eq_ok.1 h
    obtain ⟨_, _, h⟩ := bind_eq_ok.1 h
    cases h
    rfl
  · unfold DdLangevin.load DdLangevin.save Base.load at h
    simp only [List.cons_append, List.nil_append, getDbl_put, ok_bind] at h
    obtain ⟨_, hb, _⟩ := bind_eq_ok.1 h
    obtain ⟨_, hb, _⟩ := bind_eq_ok.1 hb
    simp [getInt] at hb
  · unfold DdLangevin.load at h
    obtain ⟨_, _, h⟩ := bind_eq_ok.1 h
    obtain ⟨_, _, h⟩ := bind_eq_ok.1 h
    cases h
    rfl

/-! ### Header -/

theorem getOpt_put (i : ℤ) (r : List Tok) : getOpt (putOpt i ++ r) = ok (i, r) := by
  unfold getOpt putOpt
  split <;> rename_i h
  · simp
  · simp only [not_not] at h
    simp [h]

theorem getWhen_put {b : Bool} {get : List Tok → Out (ℤ × List Tok)} {put : ℤ → List Tok}
    (h : ∀ i r, get (put i ++ r) = ok (i, r)) {i : ℤ} (hi : b = false → i = 0) (r : List Tok) :
    getWhen b get (when b (put i) ++ r) = ok (i, r) := by
  cases b
  · simp [getWhen, when, hi rfl]
  · simp [getWhen, when, h]

theorem getInt_put' (i : ℤ) (r : List Tok) : getInt ([Tok.int i] ++ r) = ok (i, r) := rfl

/-- **C67**: the header of a simulation is restored, for all sets of features without
tethers. -/
theorem C67_header_partial (f : Features) (hf : f.tether = false) (h : Header) (hh : h.Fits f)
    (r : List Tok) : Header.load f (h.save f ++ r) = ok (h, r) := by
  have ht : when f.tether ([Tok.int h.hasTether] ++ putOpt h.hasTether) = [] := by simp [when, hf]
  have ht' : ∀ r, getWhen f.tether getOpt r = ok (h.hasTether, r) := fun r => by
    simp [getWhen, hf, hh.tether hf]
  unfold Header.load Header.save
  simp only [List.append_assoc, ht, List.nil_append]
  rw [getInt_put', ok_bind]
  dsimp only
  rw [getWhen_put getInt_put' hh.bond, ok_bind]
  dsimp only
  rw [getWhen_put getOpt_put hh.angle, ok_bind]
  dsimp only
  rw [getWhen_put getOpt_put hh.dihedral, ok_bind]
  dsimp only
  rw [getWhen_put getOpt_put hh.coulomb, ok_bind]
  dsimp only
  rw [getWhen_put getOpt_put hh.external, ok_bind]
  dsimp only
  rw [getWhen_put getOpt_put hh.link, ok_bind]
  dsimp only
  rw [ht', ok_bind]
  dsimp only
  rw [getWhen_put getOpt_put hh.special, ok_bind]

/-- **C67, violated**: a program compiled with SIMP_TETHER cannot load the header of any
archive it has written, because the number hasTether is written twice. -/
theorem C67_header_violated (f : Features) (hf : f.tether = true) (h : Header) (hh : h.Fits f)
    (r : List Tok) (x : Header × List Tok) : Header.load f (h.save f ++ r) ≠ ok x := by
  have ht : when f.tether ([Tok.int h.hasTether] ++ putOpt h.hasTether) =
      Tok.int h.hasTether :: putOpt h.hasTether := by simp [when, hf]
  have ht' : ∀ r, getWhen f.tether getOpt r = getOpt r := fun r => by simp [getWhen, hf]
  unfold Header.load Header.save
  simp only [List.append_assoc, ht]
  rw [getInt_put', ok_bind]
  dsimp only
  rw [getWhen_put getInt_put' hh.bond, ok_bind]
  dsimp only
  rw [getWhen_put getOpt_put hh.angle, ok_bind]
  dsimp only
  rw [getWhen_put getOpt_put hh.dihedral, ok_bind]
  dsimp only
  rw [getWhen_put getOpt_put hh.coulomb, ok_bind]
  dsimp only
  rw [getWhen_put getOpt_put hh.external, ok_bind]
  dsimp only
  rw [getWhen_put getOpt_put hh.link, ok_bind]
  dsimp only
  rw [ht']
  intro h
  obtain ⟨_, hb, _⟩ := bind_eq_ok.1 h
  obtain ⟨_, hb, _⟩ := bind_eq_ok.1 hb
  simp [getBool] at hb

/-- The hypotheses can be met, with and without tethers. -/
example : (Header.mk 1 1 0 0 0 1 0 0 0).Fits ⟨true, true, false, false, true, false, false, false⟩ ∧
    (Header.mk 1 1 0 0 0 1 0 1 0).Fits ⟨true, true, false, false, true, false, true, false⟩ := by
  constructor <;> constructor <;> simp

/-! ### Potentials -/

/-- Every part reads exactly what it has written. -/
def Faithful (put : Part → List Tok) (get : Part → List Tok → Out (List Tok)) : Prop :=
  ∀ p r, get p (put p ++ r) = ok r

theorem readParts_write {put : Part → List Tok} {get : Part → List Tok → Out (List Tok)}
    (h : Faithful put get) (l : List Part) (r : List Tok) :
    readParts get l (writeParts put l ++ r) = ok r := by
  induction l with
  | nil => rfl
  | cons p l ih =>
    unfold readParts writeParts
    rw [List.flatMap_cons, List.append_assoc, h, ok_bind]
    exact ih

/-- Parts that write their names. -/
def Part.code : Part → ℤ
  | coulomb => 0 | pair => 1 | bond => 2 | angle => 3 | dihedral => 4 | external => 5
  | special => 6 | linkMaster => 7 | link => 8 | tetherMaster => 9 | tether => 10

theorem Part.code_inj {p q : Part} (h : p.code = q.code) : p = q := by
  cases p <;> cases q <;> simp_all [Part.code]

def putCode (p : Part) : List Tok := [Tok.int p.code]

def getCode (p : Part) (r : List Tok) : Out (List Tok) := do
  let (i, r) ← getInt r
  check (i = p.code)
  ok r

theorem code_faithful : Faithful putCode getCode := fun p r => by
  unfold putCode getCode
  rw [getInt_put', ok_bind]
  dsimp only
  rw [check_true rfl, ok_bind]

theorem readParts_code {l l' : List Part}
    (h : readParts getCode l (writeParts putCode l' ++ []) = ok []) : l = l' := by
  induction l generalizing l' with
  | nil =>
    cases l' with
    | nil => rfl
    | cons p l' => simp [readParts, writeParts, putCode] at h
  | cons q l ih =>
    unfold readParts at h
    obtain ⟨r, h1, h2⟩ := bind_eq_ok.1 h
    unfold getCode at h1
    cases l' with
    | nil => simp [writeParts, getInt] at h1
    | cons p l' =>
      have e : writeParts putCode (p :: l') ++ [] = Tok.int p.code :: (writeParts putCode l' ++ []) := rfl
      rw [e, getInt_put, ok_bind] at h1
      dsimp only at h1
      obtain ⟨_, hc, hr⟩ := bind_eq_ok.1 h1
      rw [check_eq_ok] at hc
      cases hr
      rw [Part.code_inj hc, ih h2]

theorem mdSaved_eq_iff (c : Contents) :
    mdLoaded c = mdSaved c ↔ ¬ (c.link = true ∧ (c.external = true ∨ c.special = true)) := by
  unfold mdLoaded mdSaved
  simp only [List.append_assoc, List.append_cancel_left_eq]
  obtain ⟨_, _, _, _, _, e, s, l, t⟩ := c
  dsimp only
  clear * -
  revert e s l t
  decide

/-- **C67**: the parts of a system of molecular dynamics are restored, whatever they write,
exactly if the system does not have links together with an external or a special
potential: those are written before and after the links, in another order than they are
read. -/
theorem C67_MdSystem_order (c : Contents) :
    (∀ put get, Faithful put get → ∀ r, readParts get (mdLoaded c) (writeParts put (mdSaved c) ++ r) =
      ok r) ↔ ¬ (c.link = true ∧ (c.external = true ∨ c.special = true)) := by
  rw [← mdSaved_eq_iff]
  constructor
  · intro h
    exact readParts_code (h _ _ code_faithful [])
  · intro h put get hf r
    rw [h]
    exact readParts_write hf _ _

/-- **C67**: the parts of a Monte Carlo system are restored, whatever they write, exactly if
the program is compiled without SIMP_TETHER, or tethers and the external potential are
both present or both absent. -/
theorem C67_McSystem_order (built : Bool) (c : Contents) :
    (∃ l, mcSaved built c = some l ∧ ∀ put get, Faithful put get → ∀ r,
      readParts get (mcLoaded built c) (writeParts put l ++ r) = ok r) ↔
    (built = true → c.tether = c.external) := by
  constructor
  · rintro ⟨l, hl, h⟩ hb
    have := readParts_code (h _ _ code_faithful [])
    rw [← this] at hl
    unfold mcSaved mcLoaded at hl
    rw [hb] at hl
    obtain ⟨_, p, b, a, d, e, s, k, t⟩ := c
    cases e <;> cases t <;> first | rfl | simp [only] at hl
  · intro h
    have key : mcSaved built c = some (mcLoaded built c) := by
      unfold mcSaved mcLoaded
      cases built
      · simp [only]
      · have := h rfl
        obtain ⟨_, p, b, a, d, e, s, k, t⟩ := c
        dsimp only at this
        subst this
        cases t <;> simp [only]
    exact ⟨_, key, fun put get hf r => readParts_write hf _ _⟩

/-- Both answers occur. -/
example : (∃ c : Contents, c.link = true ∧ c.external = true) ∧
    ∃ c : Contents, c.link = true ∧ ¬ (c.external = true ∨ c.special = true) :=
  ⟨⟨⟨false, true, true, false, false, true, false, true, false⟩, rfl, rfl⟩,
    ⟨⟨false, true, true, false, false, false, false, true, false⟩, rfl, by simp⟩⟩

end Verif.Restart
