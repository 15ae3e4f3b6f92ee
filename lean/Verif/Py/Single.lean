import Verif.Py.Num
import Mathlib.Data.Int.Log
import Mathlib.Analysis.Real.Sqrt
import Mathlib.Analysis.Complex.Norm

/-!
# Single precision: IEEE 754 `binary32` as NumPy's `float32` and `complex64` use it

A number is rounded to the nearest multiple of its unit in the last place, ties to even; the unit is `2^(e-23)` for numbers between `2^e` and
`2^(e+1)`, and `2^-149` below the normal range.  Results of `2^128` and more become infinite.  The two zeros are not distinguished.
-/

namespace PyNLO.Single

/-- A `float32` scalar. -/
inductive Num where
  | nan
  | inf (neg : Bool)
  | val (x : ℝ)

/-- Exponent of the unit in the last place. -/
noncomputable def expo (x : ℝ) : ℤ := max (Int.log 2 |x| - 23) (-149)

/-- The nearest single-precision number, without the limit on the exponent. -/
noncomputable def nearest (x : ℝ) : ℝ := 2 ^ expo x * pyRound (x / 2 ^ expo x)

open Classical in
/-- Rounding to `float32`. -/
noncomputable def round (x : ℝ) : Num := if |nearest x| < 2 ^ 128 then .val (nearest x) else .inf (decide (x < 0))

namespace Num

/-- `-x` -/
def neg : Num → Num
  | nan => nan
  | inf s => inf !s
  | val x => val (-x)

/-- `x + y` -/
noncomputable def add : Num → Num → Num
  | val x, val y => round (x + y)
  | nan, _ => nan
  | _, nan => nan
  | inf s, inf t => if s = t then inf s else nan
  | inf s, val _ => inf s
  | val _, inf t => inf t

/-- `x - y` -/
noncomputable def sub (x y : Num) : Num := x.add y.neg

open Classical in
/-- `x * y` -/
noncomputable def mul : Num → Num → Num
  | val x, val y => round (x * y)
  | nan, _ => nan
  | _, nan => nan
  | inf s, inf t => inf (s ^^ t)
  | inf s, val y => if y = 0 then nan else inf (s ^^ decide (y < 0))
  | val x, inf t => if x = 0 then nan else inf (decide (x < 0) ^^ t)

open Classical in
/-- `x / y` (a zero divisor counts as positive) -/
noncomputable def div : Num → Num → Num
  | val x, val y => if y = 0 then if x = 0 then nan else inf (decide (x < 0)) else round (x / y)
  | nan, _ => nan
  | _, nan => nan
  | inf _, inf _ => nan
  | inf s, val y => inf (s ^^ decide (y < 0))
  | val _, inf _ => val 0

/-- `np.sqrt` -/
noncomputable def sqrt : Num → Num
  | val x => open Classical in if x < 0 then nan else round (Real.sqrt x)
  | inf false => inf false
  | _ => nan

/-- `np.abs` of the complex number `x + iy` (the C function `hypotf`, taken as correctly rounded) -/
noncomputable def hypot : Num → Num → Num
  | val x, val y => round (Real.sqrt (x ^ 2 + y ^ 2))
  | inf _, _ => inf false
  | _, inf _ => inf false
  | _, _ => nan

end Num

/-- A `complex64` scalar. -/
structure Cplx where
  re : Num
  im : Num

/-- Assignment of a complex number to an element of a `complex64` array. -/
noncomputable def store (z : ℂ) : Cplx := ⟨round z.re, round z.im⟩

namespace Cplx

/-- `np.conj(z)` -/
def conj (z : Cplx) : Cplx := ⟨z.re, z.im.neg⟩

/-- `z + w` -/
noncomputable def add (z w : Cplx) : Cplx := ⟨z.re.add w.re, z.im.add w.im⟩

/-- `z * w`, from the products of the parts -/
noncomputable def mul (z w : Cplx) : Cplx := ⟨(z.re.mul w.re).sub (z.im.mul w.im), (z.re.mul w.im).add (z.im.mul w.re)⟩

/-- `np.abs(z)` -/
noncomputable def abs (z : Cplx) : Num := z.re.hypot z.im

open Classical in
/-- `z / d` for a real `d`: NumPy divides by `d + 0i` with Smith's method, which scales by the reciprocal of `d`. -/
noncomputable def divReal (z : Cplx) (d : Num) : Cplx :=
  match d with
  | .nan => ⟨.nan, .nan⟩
  | d =>
    if d = .val 0 then ⟨z.re.div d, z.im.div d⟩
    else
      let rat := (Num.val 0).div d
      let scl := (Num.val 1).div (d.add ((Num.val 0).mul rat))
      ⟨(z.re.add (z.im.mul rat)).mul scl, (z.im.sub (z.re.mul rat)).mul scl⟩

end Cplx

end PyNLO.Single
