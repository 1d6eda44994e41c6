import Verif.Pair.Model

/-!
# Model of the bond interactions

Sources: `src/simp/interaction/bond/{HarmonicBond,HarmonicL0Bond,FeneBond}.{h,cpp}` and
`CompositeBond.h`. Conventions as in `Verif/Pair/Model.lean`; bond types are integers.
-/

set_option autoImplicit false

namespace Verif.Bond

open Verif.Pair (Err)

/-- `t[i] = x`. -/
def upd1 (t : ℤ → ℝ) (i : ℤ) (x : ℝ) : ℤ → ℝ := fun k => if k = i then x else t k

/-- First `n` elements from `a`, the rest from `t`. -/
def fill1 (n : ℤ) (a t : ℤ → ℝ) : ℤ → ℝ := fun i => if 0 ≤ i ∧ i < n then a i else t i

/-! ## Harmonic bonds -/

/-- `HarmonicBond` (HarmonicBond.h:158-165). -/
structure Harm where
  kappa : ℤ → ℝ
  length : ℤ → ℝ
  n : ℤ

/-- `HarmonicBond::readParameters` (HarmonicBond.cpp:68-73). -/
def Harm.read (s : Harm) (kappa length : ℤ → ℝ) : Except Err Harm :=
  if s.n > 0 then
    .ok { s with kappa := fill1 s.n kappa s.kappa, length := fill1 s.n length s.length }
  else .error .throw

/-- `HarmonicBond::set` (HarmonicBond.cpp:143-153); `MaxNBondType` is 8. -/
def Harm.set (s : Harm) (name : String) (type : ℤ) (x : ℝ) : Except Err Harm :=
  if name = "kappa" then
    if 0 ≤ type ∧ type < 8 then .ok { s with kappa := upd1 s.kappa type x } else .error .ub
  else if name = "length" then
    if 0 ≤ type ∧ type < 8 then .ok { s with length := upd1 s.length type x } else .error .ub
  else .error .throw

/-- `HarmonicBond::energy` (HarmonicBond.h:191-195). -/
noncomputable def Harm.energy (s : Harm) (rSq : ℝ) (type : ℤ) : ℝ :=
  let dl := Real.sqrt rSq - s.length type
  0.5 * s.kappa type * dl * dl

/-- `HarmonicBond::forceOverR` (HarmonicBond.h:201-206). -/
noncomputable def Harm.forceOverR (s : Harm) (rSq : ℝ) (type : ℤ) : ℝ :=
  let r := Real.sqrt rSq
  let dl := s.length type - r
  s.kappa type * dl / r

/-! ## Harmonic bonds of zero length -/

/-- `HarmonicL0Bond` (HarmonicL0Bond.h:144-150): `kappa_`. -/
structure Harm0 where
  kappa : ℤ → ℝ
  n : ℤ

/-- `HarmonicL0Bond::energy` (HarmonicL0Bond.h:167-168). -/
noncomputable def Harm0.energy (s : Harm0) (rSq : ℝ) (type : ℤ) : ℝ := 0.5 * s.kappa type * rSq

/-- `HarmonicL0Bond::forceOverR` (HarmonicL0Bond.h:174-175). -/
def Harm0.forceOverR (s : Harm0) (_rSq : ℝ) (type : ℤ) : ℝ := - s.kappa type

/-! ## FENE bonds -/

/-- `FeneBond` (FeneBond.h:150-185). -/
structure Fene where
  kappa : ℤ → ℝ
  r0 : ℤ → ℝ
  r0Sq : ℤ → ℝ
  r0SqInv : ℤ → ℝ
  ce : ℤ → ℝ
  rlSq : ℤ → ℝ
  rl : ℤ → ℝ
  energyCutoff : ℤ → ℝ
  forceCutoff : ℝ
  n : ℤ

/-- Derived values of one type (FeneBond.cpp:98-105, 202-209). -/
noncomputable def Fene.derive (s : Fene) (i : ℤ) : Fene :=
  let r0Sq := s.r0 i * s.r0 i
  let r0SqInv := 1 / r0Sq
  let ce := -0.5 * r0Sq * s.kappa i
  let y := 0.5 * s.kappa i * s.r0 i / s.forceCutoff
  let rl := s.r0 i * (Real.sqrt (1 + y * y) - y)
  let rlSq := rl * rl
  let g := 1 - rlSq * r0SqInv
  { s with r0Sq := upd1 s.r0Sq i r0Sq, r0SqInv := upd1 s.r0SqInv i r0SqInv, ce := upd1 s.ce i ce
           rl := upd1 s.rl i rl, rlSq := upd1 s.rlSq i rlSq
           energyCutoff := upd1 s.energyCutoff i (ce * Real.log g) }

/-- `FeneBond::readParameters` (FeneBond.cpp:86-107). -/
noncomputable def Fene.read (s : Fene) (kappa r0 : ℤ → ℝ) (forceCutoff : ℝ) : Except Err Fene :=
  if s.n > 0 then
    .ok ((List.range s.n.toNat).foldl (fun (s : Fene) (i : ℕ) => s.derive (i : ℤ))
      { s with kappa := fill1 s.n kappa s.kappa, r0 := fill1 s.n r0 s.r0, forceCutoff := forceCutoff })
  else .error .throw

/-- `FeneBond::set` (FeneBond.cpp:192-210); `MaxNBondType` is 2. -/
noncomputable def Fene.set (s : Fene) (name : String) (type : ℤ) (x : ℝ) : Except Err Fene :=
  if name = "kappa" then
    if 0 ≤ type ∧ type < 2 then .ok (Fene.derive { s with kappa := upd1 s.kappa type x } type)
    else .error .ub
  else if name = "r0" then
    if 0 ≤ type ∧ type < 2 then .ok (Fene.derive { s with r0 := upd1 s.r0 type x } type)
    else .error .ub
  else .error .throw

/-- `FeneBond::energy` (FeneBond.h:192-201). -/
noncomputable def Fene.energy (s : Fene) (rSq : ℝ) (type : ℤ) : ℝ :=
  if rSq < s.rlSq type then
    let g := 1 - rSq * s.r0SqInv type
    s.ce type * Real.log g
  else s.energyCutoff type + s.forceCutoff * (Real.sqrt rSq - s.rl type)

/-- `FeneBond::forceOverR` (FeneBond.h:207-219). -/
noncomputable def Fene.forceOverR (s : Fene) (rSq : ℝ) (type : ℤ) : ℝ :=
  if rSq < s.rlSq type then
    let g := 1 - rSq * s.r0SqInv type
    (-s.kappa type) / g
  else -s.forceCutoff / Real.sqrt rSq

/-- Copy constructor (FeneBond.cpp:39-52): `junk` is the memory of the new object; the member
`forceCutoff_` is not copied. -/
def Fene.copy (junk s : Fene) : Fene :=
  { kappa := fill1 s.n s.kappa junk.kappa, r0 := fill1 s.n s.r0 junk.r0
    r0Sq := fill1 s.n s.r0Sq junk.r0Sq, r0SqInv := fill1 s.n s.r0SqInv junk.r0SqInv
    ce := fill1 s.n s.ce junk.ce, rlSq := fill1 s.n s.rlSq junk.rlSq, rl := fill1 s.n s.rl junk.rl
    energyCutoff := fill1 s.n s.energyCutoff junk.energyCutoff
    forceCutoff := junk.forceCutoff, n := s.n }

/-- Assignment (FeneBond.cpp:57-72). -/
def Fene.assign (old s : Fene) : Fene :=
  { kappa := fill1 s.n s.kappa old.kappa, r0 := fill1 s.n s.r0 old.r0
    r0Sq := fill1 s.n s.r0Sq old.r0Sq, r0SqInv := fill1 s.n s.r0SqInv old.r0SqInv
    ce := fill1 s.n s.ce old.ce, rlSq := fill1 s.n s.rlSq old.rlSq, rl := fill1 s.n s.rl old.rl
    energyCutoff := fill1 s.n s.energyCutoff old.energyCutoff
    forceCutoff := s.forceCutoff, n := s.n }

/-! ## Bonds with a pair interaction -/

/-- `CompositeBond::energy` (CompositeBond.h:209-217) for one bond type, from the energies of the
bond and the pair potential. -/
def compositeEnergy (bondEnergy pairEnergy : ℝ → ℝ) (rsq : ℝ) : ℝ := bondEnergy rsq + pairEnergy rsq

/-- `CompositeBond::forceOverR` (CompositeBond.h:222-230): the pair force is added without a test
of the cutoff. -/
def compositeForce (bondForce pairForce : ℝ → ℝ) (rsq : ℝ) : ℝ := bondForce rsq + pairForce rsq

end Verif.Bond
