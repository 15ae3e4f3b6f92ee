import Verif.Model.Crystal

/-!
# `src/pynlo/media/crystals/XTAL_AgGaS.py`

The class is called `AgGaSe2` there too and its methods are those of `XTAL_AgGaSe2.py`; only the index and the constants differ.
The module begins with `import exceptions`, which exists in Python 2 only, and the package does not import it.
-/

namespace PyNLO.Xtal

open Real

/-- One principal index of `XTAL_AgGaS.py:36-64`, `79-90`, squared:
`A + B/(u^a - C) + F/(u^b - G) + J/(u^c - K) + D/(1 - E/u^d)`. -/
noncomputable def sulfideSq (A B C D E F G J K a b c d wl_nm : ℝ) : ℝ :=
  let u := wl_nm * 1e-3
  A + B / (u ^ a - C) + F / (u ^ b - G) + J / (u ^ c - K) + D / (1 - E / u ^ d)

open Classical in
/-- Its square root, as a NumPy scalar; non-positive wavelengths are not modelled and give `bad`. -/
noncomputable def sulfide (A B C D E F G J K a b c d wl_nm : ℝ) : NFlt :=
  let u := wl_nm * 1e-3
  if u ≤ 0 ∨ u ^ a - C = 0 ∨ u ^ b - G = 0 ∨ u ^ c - K = 0 ∨ 1 - E / u ^ d = 0 ∨ sulfideSq A B C D E F G J K a b c d wl_nm < 0 then .bad
  else .val √(sulfideSq A B C D E F G J K a b c d wl_nm)

/-- `AgGaSe2(theta)` of `XTAL_AgGaS.py:30-69`; the methods `set_theta`, `n`, `phasematch` (`70-144`) are those of `Biref`. -/
noncomputable def agGaS (theta : ℝ := 0) : Biref :=
  { no := sulfide 5.814100 0.0867547 0.0356502 176380.0 112586195.0 0.0821721 (-0.315646) 0.506566 (-6.582197) 3.156983 4.430430 6.604280 2.225043
    ne := sulfide 5.530050 0.0510941 0.141109 4253.78 4304924.0 0.195314 (-0.0910735) 0 0 2.359877 2.566664 0 2.383834
    theta := theta }

end PyNLO.Xtal
