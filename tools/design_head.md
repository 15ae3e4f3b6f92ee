# Formal model of PyNLO: design and trusted base

The properties are in `properties.jsonl`, the Lean development in `lean/Verif`, the property-to-theorem map in
`MANIFEST.json`, and the record of mutation tests in `seeded/LOG.jsonl`.  `tools/manifest.py` and `tools/design.py`
regenerate `MANIFEST.json` and this file from `tools/status.json`.

## Layout

* `Verif/Py/*` – the slice of Python/NumPy semantics used by the models: exceptions and state (`PyM`), one-dimensional
  arrays with broadcasting, slices, `roll`, the DFT, `trapz`, `argmin`, `round`, loops that may not end (`runLoop`), floats
  with a NaN/infinity case (`NFlt`).
* `Verif/Model/*` – the code of `/repo`, function by function.  Every definition cites file and lines and names its
  simplifications.
* `Verif/Spec/*` – small specifications that do not mention the models.
* `Verif/Lemmas/*` – helper lemmas.
* `Verif/Props/*` – the property theorems, named `C<nn>_...`, each beside a concrete non-trivial instance of its hypotheses
  (`..._nonvacuous` / `..._witness`).

A theorem whose name ends in `_partial` proves a part of the property; the docstring and the table below say what is missing.
A theorem with `refuted` in its name proves that the code violates the property.

## Trusted base

* The Lean 4.33.0 kernel, and the axioms `propext`, `Classical.choice`, `Quot.sound`.  No theorem uses another axiom; there
  is no `sorry`, `native_decide`, `bv_decide`, `implemented_by` or `unsafe`.
* Mathlib, as checked by the same kernel.
* The hand translation of the Python source into `Verif/Model`.  Nothing was executed: the repository was read as text.

### Idealisations in all models

* **Floating point is exact real/complex arithmetic.**  Rounding, overflow and signed zero are not modelled, with five
  exceptions: local errors of the split-step controller may be infinite or NaN (`Err`), errors and steps of the ODE
  controller may be infinite, NaN or rounded (`Flt`, `Rounds`, `Underflows`), scalars of crystals and of the compressor
  may be NaN or infinite (`NFlt.bad`), and the arrays returned by `propagate` and the coherence computed from them are IEEE
  `binary32` (`Py/Single`; round to nearest even, NaN, infinities, subnormals; the sign of zero is not kept, `hypotf` is taken
  as correctly rounded, and the order of NumPy's sum is left open, `SumsTo`), and in C170,
  C171, C173 and C185 the lengths of the split-step step control, of the poling domains and the positions of the ODE integrator are IEEE `binary64` (`Py/Double`; round to nearest even with subnormals, no overflow).
* Division by zero: where Python raises `ZeroDivisionError` the model raises; where NumPy yields `inf`/`nan` the theorem
  carries a `≠ 0` hypothesis.
* Python 3 (`round` half to even, `range`, true division) and NumPy ≥ 1.12 (float slice bounds raise `TypeError`); NumPy
  < 1.24 where `propagate` uses `np.float`.  `field_classes.py` imports the Python 2 module `exceptions`, so on Python 3
  it cannot be imported at all; its model describes the classes once imported.
* External numeric routines (`np.polyfit`, `np.unwrap`, `scipy.interpolate`, `scipy.integrate.quad`, random number
  generators, `scipy.optimize`, `str` of a float) are arbitrary functions that the theorems quantify over.  C97 assumes an
  exact quadrature and an exact least-squares fit, C111 and C127 an exact least-squares fit; C111 and C113 model `np.unwrap` and linear `interp1d` exactly.
* Log output, plotting and FFT planning (pyfftw) are not modelled.

## What is modelled

| file (`src/pynlo/`) | Lean | modelled | not modelled |
|------|------|----------|--------------|
| `util/pynlo_ffts.py` | `Model/Ffts`, `Model/Ffts2` | `FFT_t`, `IFFT_t` of one- and two-dimensional arrays, `FFT_x`, `IFFT_x` | negative and invalid axes, more than two dimensions |
| `light/PulseBase.py` | `Model/Pulse`, `PulseOps`, `PulseHeap`, `PulseMore`, `PulseFiles` | grids, caches, setters, fields, all pulse operations, dictionaries, cloning, sub-pulses, autocorrelation, `np.unwrap`, interpolation to a new centre, spectrogram | the part of `write_frog` after its first, failing, attribute access; `load_consts` |
| `light/DerivedPulses.py` | `Model/DerivedPulses`, `PulseFiles` | all constructors, `CWPulse.gen_OSA` up to its failing attribute access | the rest of `gen_OSA` |
| `light/beam.py`, `light/high_V_waveguide.py` | `Model/Beam` | both classes | plotting, `calc_overlap_integral` of the waveguide (the constant 1) |
| `media/fibers/fiber.py`, `JSONFiberLoader.py`, `calculators.py` | `Model/Fiber`, `FiberWorld` | dispersion, gain, generation, loading, class-level dictionary, `DTabulationToBetas`, `Beta2` conversions | JSON parsing, PyTables loader |
| `interactions/FourWaveMixing/SSFM.py` | `Model/Ssfm`, `SsfmCtrl`, `SsfmProp`, `SsfmGlobals`, `SsfmSingle`, `SsfmCtrlFloat` | step control, both methods, operator cache, Raman and Kerr operators, `propagate`, coherence (exact and in single precision), gain goal; the switches of `global_variables.py` (`SsfmGlobals`; the other models fix them to the shipped values) | printing, `test_raman`, `cleanup` |
| `util/ode_solve/*` | `Model/Ode`, `OdeConst`, `OdeFloat` | output log, dense output, stepper, controller, driver, every literal of the tableau | the error message texts |
| `media/crystals/*` | `Model/Crystal`, `Model/CrystalAgGaS`, `Model/CrystalObj` | container, caches, PPLN, AgGaSe2, AgGaS, `Boyd.load`, phase matching | plotting |
| `devices/grating_compressor.py` | `Model/Treacy` | all formulas, `apply_phase_to_pulse`, the stencil of `misc.derivative`, the Savitzky-Golay filter | printing; quadrature and fit are parameters |
| `interactions/ThreeWaveMixing/DFG_integrand.py` | `Model/Dfg`, `DfgFft`, `DfgSetup`, `DfgOut`, `DfgPpln`, `DfgPolingFloat`, `DfgVg` | constructor, `vg`, poling, convolutions, `deriv`, post-processing, results object | the chi-3 terms behind `gen_jl` (unreachable, see C74), overlap plots |
| `interactions/ThreeWaveMixing/multi_run_rw.py` | `Model/MultiRun` | reader and writer on an abstract file | HDF5 encoding |
| `interactions/ThreeWaveMixing/field_classes.py` | `Model/FieldClasses` | both classes, with array identities | `ks` |

Ghost state: the ODE driver model carries a list `visited` of positions that the code does not have; no branch reads it.

Everything else (`examples`, `util/Calculators`, `util/ode_solve/test.py` and `example.py`, `validation`, plotting, FROG and OSA file formats, CODATA values other than `c`) is not modelled.

## Proof methods

* Grids and transforms (C01–C06, C10–C15, C17, C24–C28, C83): orthogonality of the DFT, shift bookkeeping for every length.
* Histories (C07, C09, C31, C60, C64, C65, C73, C75, C81, C87, C90, C104, C146): state machines with an invariant, induction over
  the list of calls.
* Loops (C35–C39, C53–C57, C68): `runLoop` with invariants and ranking functions; non-termination is a theorem as well.
* Split-step method (C40–C48): operator identities by DFT algebra, induction over the adaptive loop for every error stream.
* Conservation laws (C70, C99, C102, C103, C107): convolution theorem, adjointness of convolution and correlation, and a
  constancy argument for solutions of the differential equation.
* Optics (C61–C67, C76–C80, C88–C97): real analysis (derivatives, monotonicity, interval bounds) over the whole stated range.
* Tableau (C59, C109): exact rational arithmetic over every literal.
* Order of the integrator (C110): `Spec/RungeKutta` states Butcher's rooted trees; `Lemmas/RungeKutta` proves the expansion of
  step and flow in elementary differentials for every analytic right-hand side; the order conditions of all trees with at
  most 8 vertices are evaluated with integers by the kernel (`decide +kernel`), and every tree is shown to be in that list.
* Order of RK4IP (C114, C115): the step is the classical Runge–Kutta step in the interaction picture; step doubling and
  extrapolation are one method with twelve stages, treated with the tree expansion of C110.
* Convergence (C116, C117): the local error of C114 is uniform along a solution (Taylor's theorem on compact sets), the accepted
  step is stable (Lipschitz constant `1 + Kh`), steps below a bound are accepted at once, and errors add up by a discrete
  Grönwall argument.  Solutions exist over every distance because a cut-off equation has them (Picard–Lindelöf) and the energy
  law keeps them inside the cut-off.
* Refinement of the time grid (C132, C133): `Spec/Nlse` states the partial differential equation without a grid.  Fourier series of smooth
  periodic functions are summed on the grid, where a wave number appears in the bin congruent to it; coefficients decay faster than
  every power, so the discrete dispersion operator is accurate to every order.  The difference of the two fields obeys Grönwall's
  inequality as long as it is below one, which a first-exit argument shows to be always.  With Raman response the convolution on the grid
  is a Riemann sum of the integral (`Lemmas/RamanGrid`), which limits the order to one.
* Existence of the limit (C167, C168): the Fourier coefficients of a pulse form a point of the space of absolutely summable sequences; there
  the interaction picture turns the equation into a locally Lipschitz one (`Lemmas/Wiener`).  The same argument with weights `(1+|k|)ˢ` makes
  the solution smooth (`WienerSmooth`, `WienerSolution`, `WienerNlse`).  A bound on the sum of the coefficients continues it
  (`WienerGlobal`).  The bound comes from the mean square width of the spectrum: its change is a sum over four waves; where the sum of two
  frequencies is large, polynomial dispersion of order two or more keeps the waves out of phase (`WienerResonance`) and a correction of fourth
  order removes these terms (`WienerQuartic`, `WienerNormal`); the rest and the delayed response are bounded by energy times width
  (`WienerRamanBound`).  Affine dispersion is solved in closed form (`NlseFlat`).  C169 draws consequences that mention no solution.
  Not covered: self-steepening.
* Global switches (C137, C138): `Model/SsfmGlobals` repeats the solver with both switches as parameters; runs in the two array orders
  are related step by step by the shift, and the shipped values are proved to give the model of the other theorems.
* Raman red shift (C139): `Spec/RedShift` defines the mean frequency without a grid.  Integration by parts removes dispersion of every order
  and the instantaneous response; the work of a damped sine or of the boson peak is a sum of squares plus what is cut off at half the
  window, which appears as an explicit term.  The centroid on the grid is a Riemann sum (`Lemmas/Centroid`), and C132, C133 carry the
  statement to the pulses that are computed.  Not covered: self-steepening, odd grids, fields without a smooth solution.
* Convergence of the integrator (C118): the equation for `(x, y)` is autonomous, so the tree expansion of C110 applies when the nodes
  are the row sums; the literals' deviation from that, the local error and the stability of a step (Lipschitz constant
  `1 + 26Lh`) add up to an invariant that every step of the integration loop keeps.
* Rows between the steps (C119): the interpolant is a weighted sum of 16 stages whose weights satisfy the continuous order conditions
  up to order 7 (kernel-checked over all trees); an invariant says which step each row is taken from.
* Jumps (C120): a step inside a piece is treated as in C118; a step that touches a jump is bounded by its length, and a counter of
  touched positions enters the invariant.
* Convergence for a crystal (C121): `deriv` is rewritten as three coupled equations (`Spec/Dfg`); bounds and Lipschitz constants come
  from the number of mixing pairs, solutions exist through every wall because the power law keeps them bounded, they are unique by
  Grönwall's inequality on each domain, and C120 gives the rate.
* Linear constraints (C108): induction over stages, steps and saved rows for an arbitrary subspace.
* Phase unwrapping (C111): `np.unwrap` recovers every sequence whose steps are below π; the fit then returns the polynomial.
* Interpolation (C113): `interp1d` equals a sum of hat functions; the columns of hats add up to at most one.
* Spectrogram (C112): the rows are rewritten as gated spectra, which locates them on the frequency axis.
