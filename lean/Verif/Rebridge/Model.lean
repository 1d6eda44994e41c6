/-
Rebridging of ring molecules (mcMd/mcMoves/ring/RingTetraRebridgeMove).  The move picks an atom `a`
of a ring and its successor `b`, looks for a second bond `c - d` of the same ring, and replaces the
bonds `a - b`, `c - d` by `a - c`, `b - d`.  The atoms keep their names: the move is carried out by
reversing the order of the positions along one of the two arcs between the broken bonds.

Atoms of the ring are indexed by `ZMod n`; `modId`, which the code uses to bring indices back into
[0, n), is modelled on integers and shown to agree with it.  The molecule is the one that the code
has chosen (cpp:129); it is uniform among the molecules of the species and is not changed by the
move.  All atoms, bonds and angles of the ring have the same type, as `Ring` species of a single
type do; the code relies on it by using the type of one bond and one angle (cpp:147,
GroupRebridgeBase.cpp:106-107).
-/
import Verif.McMoves.Measure
import Mathlib.Data.ZMod.Basic

set_option autoImplicit false

namespace Verif.Rebridge

open Verif.Boundary

/-- `modId`, ring/RingTetraRebridgeMove.h:105-110: `%` of C++ truncates. -/
def modId (id n : ℤ) : ℤ :=
  let id := if id ≥ n then Int.tmod id n else id
  if id < 0 then n - Int.tmod (-id) n else id

/-- What the move reads: `boundary().distanceSq(x, y)`, the separation `x - y` that its form with
three arguments returns, the potentials (`pair` is zero if compiled with SIMP_NOPAIR, `angle` is
absent if there is none), the parameters `lowerBridge`, `upperBridge` (cpp:45-46), and the inverse
temperature. -/
structure World where
  dsq : Vec → Vec → ℝ
  dvec : Vec → Vec → Vec
  bond : ℝ → ℝ
  pair : ℝ → ℝ
  angle : Option (ℝ → ℝ)
  lower : ℝ
  upper : ℝ
  beta : ℝ

variable {n : ℕ}

/-- Square of a vector, util/space/Vector.h (`square`). -/
def sq (v : Vec) : ℝ := v 0 * v 0 + v 1 * v 1 + v 2 * v 2

/-- Scalar product, util/space/Vector.h (`dot`). -/
def dot (u v : Vec) : ℝ := u 0 * v 0 + u 1 * v 1 + u 2 * v 2

/-- The test `lenSq > minSq && lenSq < maxSq` (cpp:238, 262, 266, 270). -/
def World.inRange (w : World) (lenSq : ℝ) : Prop :=
  lenSq > w.lower * w.lower ∧ lenSq < w.upper * w.upper

/-- `R_`: the ring retraced from atom 0, cpp:244-250. -/
def World.unwrap (w : World) (r : ZMod n → Vec) : ℕ → Vec
  | 0 => r 0
  | i + 1 => w.unwrap r i + w.dvec (r (i + 1 : ℕ)) (r (i : ℕ))

/-- `R_[x]`. -/
def World.site (w : World) (r : ZMod n → Vec) (x : ZMod n) : Vec := w.unwrap r x.val

/-- The three tests of a candidate `c`, cpp:259-278. -/
def World.fits (w : World) (r : ZMod n → Vec) (ia ic : ZMod n) : Prop :=
  w.inRange (sq (w.site r ia - w.site r ic)) ∧
  w.inRange (sq (w.site r (ic + 1) - w.site r ic)) ∧
  w.inRange (sq (w.site r (ic + 1) - w.site r (ia + 1)))

open Classical in
/-- `idList` of `scanBridge`, cpp:224-280: the loop runs over `i = 1, ..., n - 3`. -/
noncomputable def World.scan (w : World) (r : ZMod n → Vec) (ia : ZMod n) : List (ZMod n) :=
  if w.inRange (w.dsq (r ia) (r (ia + 1))) then
    ((List.range (n - 3)).map fun i => ia + 1 + ((i + 1 : ℕ) : ZMod n)).filter
      (fun ic => decide (w.fits r ia ic))
  else []

/-- `AnglePotential::energy` of the cosine of three atoms, as `angleEnergy` of
GroupRebridgeBase.h:96-107 computes it. -/
noncomputable def World.angleEnergy (w : World) (ψ : ℝ → ℝ) (x y z : Vec) : ℝ :=
  let r1 := w.dvec y x
  let r2 := w.dvec z y
  ψ (dot (fun i => r1 i / Real.sqrt (sq r1)) (fun i => r2 i / Real.sqrt (sq r2)))

/-- `tetraEnergy`, base/GroupRebridgeBase.cpp:52-171, for atoms `a`, `b = a + 1`, `c`, `d = c + 1`
of a ring: the other neighbours that the loops over bonds find are `a - 1`, `b + 1`, `c - 1`,
`d + 1`. -/
noncomputable def World.tetraEnergy (w : World) (r : ZMod n → Vec) (ia ic : ZMod n) : ℝ :=
  let a := r ia
  let b := r (ia + 1)
  let c := r ic
  let d := r (ic + 1)
  let lab := w.dsq a b
  let lcd := w.dsq c d
  let lac := w.dsq a c
  let lbd := w.dsq b d
  0 - w.bond lab - w.bond lcd + w.bond lac + w.bond lbd
    - w.pair lac - w.pair lbd + w.pair lab + w.pair lcd
    + match w.angle with
      | none => 0
      | some ψ =>
        let am := r (ia - 1)
        let bp := r (ia + 1 + 1)
        let cm := r (ic - 1)
        let dp := r (ic + 1 + 1)
        0 - w.angleEnergy ψ am a b - w.angleEnergy ψ a b bp
          - w.angleEnergy ψ cm c d - w.angleEnergy ψ c d dp
          + w.angleEnergy ψ am a c + w.angleEnergy ψ a c cm
          + w.angleEnergy ψ bp b d + w.angleEnergy ψ b d dp

/-- One exchange of positions, cpp:190-201. -/
def swapPair (r : ZMod n → Vec) (l h : ZMod n) : ZMod n → Vec :=
  Function.update (Function.update r l (r h)) h (r l)

/-- The loop over exchanges, cpp:183-203. -/
def swapLoop (r : ZMod n → Vec) (low high : ZMod n) : ℕ → (ZMod n → Vec)
  | 0 => r
  | j + 1 => swapPair (swapLoop r low high j) (low + (j : ℕ)) (high - (j : ℕ))

/-- `nSwap`, cpp:167-170, 176-179. -/
def nSwap (len : ℕ) : ℕ := if len % 2 = 0 then len / 2 else (len + 1) / 2

/-- The positions after acceptance, cpp:155-203. -/
def reconnect (r : ZMod n → Vec) (ia ic : ZMod n) : ZMod n → Vec :=
  let ib := ia + 1
  let id := ic + 1
  let ibc := (ic - ib).val
  let ida := (ia - id).val
  if ibc ≤ ida then swapLoop r ib ic (nSwap ibc) else swapLoop r id ia (nSwap ida)

/-- `move`, cpp:114-212, when the random draws are the atom `ia`, the number `k` of the candidate,
and the deviate `v` of `Random::metropolis`.  The second component is what `move` returns. -/
noncomputable def World.move (w : World) (r : ZMod n → Vec) (ia : ZMod n) (k : ℕ) (v : ℝ) :
    (ZMod n → Vec) × Bool :=
  match (w.scan r ia)[k]? with
  | none => (r, false)
  | some ic =>
    if McMoves.metropolis (Real.exp (-w.beta * w.tetraEnergy r ia ic)) v then
      (reconnect r ia ic, true)
    else (r, false)

open scoped ENNReal in
/-- Probability that the move leads from `r` to `r'` and is accepted: `ia` is uniform among the
atoms, the candidate is uniform among those found (cpp:281-284), the deviate is uniform in [0, 1). -/
noncomputable def World.passage [NeZero n] (w : World) (r r' : ZMod n → Vec) : ℝ≥0∞ :=
  ∑ ia : ZMod n, (n : ℝ≥0∞)⁻¹ * ∑ k ∈ Finset.range (w.scan r ia).length,
    ((w.scan r ia).length : ℝ≥0∞)⁻¹ * McMoves.prob (fun v => w.move r ia k v = (r', true))

end Verif.Rebridge
