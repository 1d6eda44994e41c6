import Mathlib.Algebra.Order.Archimedean.Real.Basic

/-!
# Conversion of a floating point number to `int`

The C++ conversion `int(x)` discards the fractional part (rounds toward zero).
Doubles are modelled by reals; values outside the range of `int` (undefined
behaviour in C++) are not modelled.
-/

namespace Verif.Cpp

/-- `int(x)`. -/
noncomputable def trunc (x : ℝ) : ℤ := if 0 ≤ x then ⌊x⌋ else ⌈x⌉

theorem trunc_of_nonneg {x : ℝ} (h : 0 ≤ x) : trunc x = ⌊x⌋ := if_pos h

theorem trunc_of_neg {x : ℝ} (h : x < 0) : trunc x = ⌈x⌉ := if_neg (by linarith)

end Verif.Cpp
