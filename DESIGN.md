# Formal model of PyNLO: design and trusted base

The properties are in `properties.jsonl`, the Lean development in `lean/Verif`, the property-to-theorem map in
`MANIFEST.json`, and the record of mutation tests in `seeded/LOG.jsonl`.  `tools/manifest.py` and `tools/design.py`
regenerate `MANIFEST.json` and this file from `tools/status.json`.

## Layout

* `Verif/Py/*` – the slice of Python/NumPy semantics used by the models: exceptions and state (`PyM`), one-dimensional
  arrays with broadcasting, slices, `roll`, the DFT, `trapz`, `argmin`, `round`, loops that may not end (`runLoop`), floats
  with a NaN/infinity case (`NFlt`).
* `Verif/Model/*` – the code of `/repo`, function by function.  Every definition cites file and lines and names its
  simplifications.
* `Verif/Spec/*` – small specifications that do not mention the models.
* `Verif/Lemmas/*` – helper lemmas.
* `Verif/Props/*` – the property theorems, named `C<nn>_...`, each beside a concrete non-trivial instance of its hypotheses
  (`..._nonvacuous` / `..._witness`).

A theorem whose name ends in `_partial` proves a part of the property; the docstring and the table below say what is missing.
A theorem with `refuted` in its name proves that the code violates the property.

## Trusted base

* The Lean 4.33.0 kernel, and the axioms `propext`, `Classical.choice`, `Quot.sound`.  No theorem uses another axiom; there
  is no `sorry`, `native_decide`, `bv_decide`, `implemented_by` or `unsafe`.
* Mathlib, as checked by the same kernel.
* The hand translation of the Python source into `Verif/Model`.  Nothing was executed: the repository was read as text.

### Idealisations in all models

* **Floating point is exact real/complex arithmetic.**  Rounding, overflow and signed zero are not modelled, with five
  exceptions: local errors of the split-step controller may be infinite or NaN (`Err`), errors and steps of the ODE
  controller may be infinite, NaN or rounded (`Flt`, `Rounds`, `Underflows`), scalars of crystals and of the compressor
  may be NaN or infinite (`NFlt.bad`), and the arrays returned by `propagate` and the coherence computed from them are IEEE
  `binary32` (`Py/Single`; round to nearest even, NaN, infinities, subnormals; the sign of zero is not kept, `hypotf` is taken
  as correctly rounded, and the order of NumPy's sum is left open, `SumsTo`), and in C170,
  C171, C173 and C185 the lengths of the split-step step control, of the poling domains and the positions of the ODE integrator are IEEE `binary64` (`Py/Double`; round to nearest even with subnormals, no overflow).
* Division by zero: where Python raises `ZeroDivisionError` the model raises; where NumPy yields `inf`/`nan` the theorem
  carries a `≠ 0` hypothesis.
* Python 3 (`round` half to even, `range`, true division) and NumPy ≥ 1.12 (float slice bounds raise `TypeError`); NumPy
  < 1.24 where `propagate` uses `np.float`.  `field_classes.py` imports the Python 2 module `exceptions`, so on Python 3
  it cannot be imported at all; its model describes the classes once imported.
* External numeric routines (`np.polyfit`, `np.unwrap`, `scipy.interpolate`, `scipy.integrate.quad`, random number
  generators, `scipy.optimize`, `str` of a float) are arbitrary functions that the theorems quantify over.  C97 assumes an
  exact quadrature and an exact least-squares fit, C111 and C127 an exact least-squares fit; C111 and C113 model `np.unwrap` and linear `interp1d` exactly.
* Log output, plotting and FFT planning (pyfftw) are not modelled.

## What is modelled

| file (`src/pynlo/`) | Lean | modelled | not modelled |
|------|------|----------|--------------|
| `util/pynlo_ffts.py` | `Model/Ffts`, `Model/Ffts2` | `FFT_t`, `IFFT_t` of one- and two-dimensional arrays, `FFT_x`, `IFFT_x` | negative and invalid axes, more than two dimensions |
| `light/PulseBase.py` | `Model/Pulse`, `PulseOps`, `PulseHeap`, `PulseMore`, `PulseFiles` | grids, caches, setters, fields, all pulse operations, dictionaries, cloning, sub-pulses, autocorrelation, `np.unwrap`, interpolation to a new centre, spectrogram | the part of `write_frog` after its first, failing, attribute access; `load_consts` |
| `light/DerivedPulses.py` | `Model/DerivedPulses`, `PulseFiles` | all constructors, `CWPulse.gen_OSA` up to its failing attribute access | the rest of `gen_OSA` |
| `light/beam.py`, `light/high_V_waveguide.py` | `Model/Beam` | both classes | plotting, `calc_overlap_integral` of the waveguide (the constant 1) |
| `media/fibers/fiber.py`, `JSONFiberLoader.py`, `calculators.py` | `Model/Fiber`, `FiberWorld` | dispersion, gain, generation, loading, class-level dictionary, `DTabulationToBetas`, `Beta2` conversions | JSON parsing, PyTables loader |
| `interactions/FourWaveMixing/SSFM.py` | `Model/Ssfm`, `SsfmCtrl`, `SsfmProp`, `SsfmGlobals`, `SsfmSingle`, `SsfmCtrlFloat` | step control, both methods, operator cache, Raman and Kerr operators, `propagate`, coherence (exact and in single precision), gain goal; the switches of `global_variables.py` (`SsfmGlobals`; the other models fix them to the shipped values) | printing, `test_raman`, `cleanup` |
| `util/ode_solve/*` | `Model/Ode`, `OdeConst`, `OdeFloat` | output log, dense output, stepper, controller, driver, every literal of the tableau | the error message texts |
| `media/crystals/*` | `Model/Crystal`, `Model/CrystalAgGaS`, `Model/CrystalObj` | container, caches, PPLN, AgGaSe2, AgGaS, `Boyd.load`, phase matching | plotting |
| `devices/grating_compressor.py` | `Model/Treacy` | all formulas, `apply_phase_to_pulse`, the stencil of `misc.derivative`, the Savitzky-Golay filter | printing; quadrature and fit are parameters |
| `interactions/ThreeWaveMixing/DFG_integrand.py` | `Model/Dfg`, `DfgFft`, `DfgSetup`, `DfgOut`, `DfgPpln`, `DfgPolingFloat`, `DfgVg` | constructor, `vg`, poling, convolutions, `deriv`, post-processing, results object | the chi-3 terms behind `gen_jl` (unreachable, see C74), overlap plots |
| `interactions/ThreeWaveMixing/multi_run_rw.py` | `Model/MultiRun` | reader and writer on an abstract file | HDF5 encoding |
| `interactions/ThreeWaveMixing/field_classes.py` | `Model/FieldClasses` | both classes, with array identities | `ks` |

Ghost state: the ODE driver model carries a list `visited` of positions that the code does not have; no branch reads it.

Everything else (`examples`, `util/Calculators`, `util/ode_solve/test.py` and `example.py`, `validation`, plotting, FROG and OSA file formats, CODATA values other than `c`) is not modelled.

## Proof methods

* Grids and transforms (C01–C06, C10–C15, C17, C24–C28, C83): orthogonality of the DFT, shift bookkeeping for every length.
* Histories (C07, C09, C31, C60, C64, C65, C73, C75, C81, C87, C90, C104, C146): state machines with an invariant, induction over
  the list of calls.
* Loops (C35–C39, C53–C57, C68): `runLoop` with invariants and ranking functions; non-termination is a theorem as well.
* Split-step method (C40–C48): operator identities by DFT algebra, induction over the adaptive loop for every error stream.
* Conservation laws (C70, C99, C102, C103, C107): convolution theorem, adjointness of convolution and correlation, and a
  constancy argument for solutions of the differential equation.
* Optics (C61–C67, C76–C80, C88–C97): real analysis (derivatives, monotonicity, interval bounds) over the whole stated range.
* Tableau (C59, C109): exact rational arithmetic over every literal.
* Order of the integrator (C110): `Spec/RungeKutta` states Butcher's rooted trees; `Lemmas/RungeKutta` proves the expansion of
  step and flow in elementary differentials for every analytic right-hand side; the order conditions of all trees with at
  most 8 vertices are evaluated with integers by the kernel (`decide +kernel`), and every tree is shown to be in that list.
* Order of RK4IP (C114, C115): the step is the classical Runge–Kutta step in the interaction picture; step doubling and
  extrapolation are one method with twelve stages, treated with the tree expansion of C110.
* Convergence (C116, C117): the local error of C114 is uniform along a solution (Taylor's theorem on compact sets), the accepted
  step is stable (Lipschitz constant `1 + Kh`), steps below a bound are accepted at once, and errors add up by a discrete
  Grönwall argument.  Solutions exist over every distance because a cut-off equation has them (Picard–Lindelöf) and the energy
  law keeps them inside the cut-off.
* Refinement of the time grid (C132, C133): `Spec/Nlse` states the partial differential equation without a grid.  Fourier series of smooth
  periodic functions are summed on the grid, where a wave number appears in the bin congruent to it; coefficients decay faster than
  every power, so the discrete dispersion operator is accurate to every order.  The difference of the two fields obeys Grönwall's
  inequality as long as it is below one, which a first-exit argument shows to be always.  With Raman response the convolution on the grid
  is a Riemann sum of the integral (`Lemmas/RamanGrid`), which limits the order to one.
* Existence of the limit (C167, C168): the Fourier coefficients of a pulse form a point of the space of absolutely summable sequences; there
  the interaction picture turns the equation into a locally Lipschitz one (`Lemmas/Wiener`).  The same argument with weights `(1+|k|)ˢ` makes
  the solution smooth (`WienerSmooth`, `WienerSolution`, `WienerNlse`).  A bound on the sum of the coefficients continues it
  (`WienerGlobal`).  The bound comes from the mean square width of the spectrum: its change is a sum over four waves; where the sum of two
  frequencies is large, polynomial dispersion of order two or more keeps the waves out of phase (`WienerResonance`) and a correction of fourth
  order removes these terms (`WienerQuartic`, `WienerNormal`); the rest and the delayed response are bounded by energy times width
  (`WienerRamanBound`).  Affine dispersion is solved in closed form (`NlseFlat`).  C169 draws consequences that mention no solution.
  Not covered: self-steepening.
* Global switches (C137, C138): `Model/SsfmGlobals` repeats the solver with both switches as parameters; runs in the two array orders
  are related step by step by the shift, and the shipped values are proved to give the model of the other theorems.
* Raman red shift (C139): `Spec/RedShift` defines the mean frequency without a grid.  Integration by parts removes dispersion of every order
  and the instantaneous response; the work of a damped sine or of the boson peak is a sum of squares plus what is cut off at half the
  window, which appears as an explicit term.  The centroid on the grid is a Riemann sum (`Lemmas/Centroid`), and C132, C133 carry the
  statement to the pulses that are computed.  Not covered: self-steepening, odd grids, fields without a smooth solution.
* Convergence of the integrator (C118): the equation for `(x, y)` is autonomous, so the tree expansion of C110 applies when the nodes
  are the row sums; the literals' deviation from that, the local error and the stability of a step (Lipschitz constant
  `1 + 26Lh`) add up to an invariant that every step of the integration loop keeps.
* Rows between the steps (C119): the interpolant is a weighted sum of 16 stages whose weights satisfy the continuous order conditions
  up to order 7 (kernel-checked over all trees); an invariant says which step each row is taken from.
* Jumps (C120): a step inside a piece is treated as in C118; a step that touches a jump is bounded by its length, and a counter of
  touched positions enters the invariant.
* Convergence for a crystal (C121): `deriv` is rewritten as three coupled equations (`Spec/Dfg`); bounds and Lipschitz constants come
  from the number of mixing pairs, solutions exist through every wall because the power law keeps them bounded, they are unique by
  Grönwall's inequality on each domain, and C120 gives the rate.
* Linear constraints (C108): induction over stages, steps and saved rows for an arbitrary subspace.
* Phase unwrapping (C111): `np.unwrap` recovers every sequence whose steps are below π; the fit then returns the polynomial.
* Interpolation (C113): `interp1d` equals a sum of hat functions; the columns of hats add up to at most one.
* Spectrogram (C112): the rows are rewritten as gated spectra, which locates them on the frequency axis.

## Where the code disagrees with a property

Each line is proved in Lean by a theorem with `refuted` in its name (a concrete witness, or a statement for all inputs).

* **C02 AW is the Fourier transform of AT on the advertised grids** – proved for every even NPTS; refuted for every odd NPTS (half-bin phase error on the advertised grids).
* **C04 Grid geometry** – geometry proved for all NPTS, centre bin for even NPTS; centre bin refuted for every odd NPTS.
* **C05 SI accessors agree with the ps/nm accessors** – uncached accessors proved (cached ones under C07); center_wavelength_mks refuted: factor 1e18 off for every pulse.
* **C07 Wavelength and angular-frequency grids are never stale** – fresh for every history that keeps the window and whose (frequency, NPTS) keys do not collide; stale grid after a window change and after a key collision refuted.
* **C09 Field isolation** – field arrays isolated for every interleaving; cached wavelength/frequency grid arrays are handed out by reference (refuted).
* **C13 calc_epp is unchanged by chirp_pulse_W** – holds when the two end samples carry equal power before and after; refuted in general (trapezoid rule on a periodic grid).
* **C14 Time offset is a circular shift** – circular shift, additivity proved for all sizes; the direction (later) is refuted: a positive offset moves the pulse to earlier T_ps.
* **C16 expand_time_window is atomic** – refuted: after an error the old field is already lost; the no-field branch is proved.
* **C23 Intensity autocorrelation** – holds only when every |A(t)| is 0 or 1; scaling and symmetry are refuted in general.
* **C24 Analytic pulses have the requested power** – peak powers and average powers proved; the sinc shape with an average power request is refuted.
* **C25 CW pulse** – even NPTS proved for offsets inside the grid; odd NPTS refuted; refuted for offsets below the grid (the line wraps round), offsets above it raise IndexError.
* **C26 Noise** – add_noise proved; the uniform phase of NoisePulse is refuted (its exponent is real).
* **C27 Propagation constant is referenced to the pulse frame** – even NPTS proved for GVD, n and D formats; odd NPTS refuted; unknown formats return -1.
* **C29 Dispersion units** – per-km proved for generate_fiber and the data base; data base entries in any other unit are silently loaded with zero dispersion (refuted).
* **C31 Fibre instances are independent** – non-interference proved for interleavings that do not write into the class-level dictionary; refuted otherwise.
* **C32 DTabulationToBetas does not modify its argument** – refuted: the caller's D column is multiplied by 1e-6; exact effect proved.
* **C37 Zero-length segment is harmless** – refuted: the stored step becomes 0 and the next call never returns.
* **C38 Integrated distance equals the requested distance** – never less than requested; exact unless a remainder of at most 2*dz_min is left; overshoot refuted.
* **C39 Local error control** – all non-NaN errors proved; NaN errors are accepted (refuted).
* **C43 propagate output bookkeeping** – even grids proved; refuted for odd grids, where pulse_out is rotated by one sample.
* **C48 Both methods apply the full dispersion** – refuted for METHOD_SSFM: half of the dispersion is applied.
* **C49 Raman response** – causality and normalisation proved on even grids; refuted: the default response ignores f_R, and odd grids keep a response at negative delay.
* **C51 Gain goal reached** – refuted: the call always fails (pulse_out.frep does not exist).
* **C57 Dense output is on the requested uniform grid** – every saved position is a grid point except the position after the second step and the end point; single-step integrations give the full grid; refuted: y'=1 in two steps leaves grid points out; positions in double precision: C173.
* **C58 Trivial equations integrate** – refuted: y' = 0 raises for every initial value (0/0 in the error estimate).
* **C60 Integrations are independent** – independent of every history whose last integration returned; refuted after a failed integration (class-level reject flag).
* **C64 Cached refractive index is the crystal's own** – holds when equal cache strings mean equal arrays; refuted for a second crystal, after a temperature change, and for the axis called "None".
* **C65 Crystal properties are per crystal** – refuted: creating PPLN changes the threshold of existing crystals; holds for AgGaSe2 and after the first PPLN.
* **C66 Group delay algebra and dispersion sign** – delay algebra proved for every index; group velocity and dispersion proved exact for polynomial indices of degree <= 10, within an explicit bound for indices with eleven derivatives, and within 1e-19 (group index) and 1e-11 ps/nm/km for PPLN between 0.5 and 4.9 um; refuted: D has the opposite sign (for PPLN between 0.5 and 1.8 um the code returns a positive number where the dispersion is negative).
* **C69 Zero-padded convolution and correlation** – even grid sizes as quantified; for odd sizes the window is off by one bin (C69_odd_refuted).
* **C72 Post-processing only adds phases** – refuted: a second call multiplies the phases into the saved fields again; the moduli part holds for every output.
* **C73 Result handles are stable** – refuted: all get_* calls return one shared pulse; holds for the last call of any sequence.
* **C74 Default DFG problem is integrable** – refuted: disable_SPM=False raises AttributeError for every problem; with True the derivative exists exactly for the known modes.
* **C81 Field containers** – refuted for index 3 of calculate_overlap (IndexError); the container part is proved for every history.
* **C84 generate_fiber replaces the previous configuration** – holds unless a dispersion or gamma function was set before (refuted then).
* **C85 Gain spectrum fibres** – refuted: get_gain raises for every fibre with a gain spectrum (pulse.frep_Hz does not exist).
* **C86 Coherence is repeatable with a seed** – refuted: random_seed is ignored.
* **C87 An Output object can be reused** – refuted: the count is not reset, old rows become zeros.
* **C88 Dispersion methods work with their default axis** – refuted: default axis raises ValueError on AgGaSe2; axis 'o' proved.
* **C89 Poling period can be evaluated however it was set** – refuted for set_pp_chirp (self.length does not exist) and for set_pp(calculate_poling_period(p, s, i)) with all three wavelengths given, which returns a plain number that pp then calls (TypeError); proved for set_pp with a tuple, a function, and the period computed with one wavelength left out.
* **C95 Optimal overlap objective** – equals minus the integral from the focus to one crystal length; refuted for a focus in the crystal centre.
* **C96 Compressor dispersion order units** – order 1 proved, with an error bound; refuted for higher orders (factor 10^(15 n (n+1)) instead of 10^(15 (n+1))), with a grating for which order 2 is too large by more than 10^44.
* **C97 Compressor leaves no delay** – refuted: the subtracted slope is the second-order coefficient, a positive delay is left for every grating whose GDD is below its delay in SI units.
* **C98 DFG set-up rejects mismatched time windows** – refuted with a concrete problem whose windows differ; the three grids match exactly when the windows are equal.
* **C99 Free-space mixing conserves power** – refuted for free-space beams with a concrete problem; holds when the waist in use is the same in all bins.
* **C100 Saved runs can be read back** – refuted: add_run raises for every input and library version; with old libraries the waves are left in the file with repetition rate zero and no parameter, and the writer is stuck; other parameters are untouched.
* **C101 Signal results use the signal grid** – refuted with a concrete problem; the grid is the signal grid exactly when the windows are equal.
* **C105 Central wavenumbers belong to one container** – refuted: k0s is one list of the class.
* **C106 Runs keep their repetition rate** – refuted with a file of two runs; holds exactly for runs whose rate equals that of run 0.
* **C112 Spectrogram axes and values** – refuted: the frequency axis is mirrored about the centre frequency, row f shows the spectrum at 2·f0 − f; a concrete four-point pulse is the witness. Proved: exact value of every entry, the centre row, both axes, the time axis, scaling and errors.
* **C113 Interpolation onto a new centre wavelength** – refuted: the energy is not kept for moves by a fraction of a bin, two opposite lines lose three quarters of it. Proved: value of every sample, exact shift and exact energy for whole bins, upper bounds for energy and samples, errors. The positive time window makes the grid sorted; a stale W_mks cache is excluded by hypothesis (see C07).
* **C115 The nonlinear operator is the right-hand side of the propagation equation** – refuted: where |A| <= 1e-15 one of the two self-steepening terms is dropped, so at a zero of the field the operator times the field vanishes although the right-hand side does not. Proved: equality without self-steepening, error of at most 1.0001e-5 times the term above the threshold, exact defect below it.
* **C119 Rows between the steps follow the exact solution** – refuted: rows inside the second step are extrapolated backwards from the third (Output.out saves only its end when nstp == 1): for y' = 1000(x-7/8)^7 with absolute tolerance 1 a row is off by more than 5 while the result is right to 20 digits (C119_row_refuted). Proved for all other rows, and for all rows if the second step is not longer than the spacing of the rows; forward integration.
* **C126 From a poling period back to the signal wavelength** – refuted: signal and idler have the same period, so for a pump at 800 nm no optimiser recovers both 1500 nm and 1714 nm; pumps beyond 1998 nm raise ValueError with the default bound. Proved: the error of the period is the root of the objective; with an exact optimiser the wavelength returned has the period asked for, and it is the signal itself when it lies at or below twice the pump and the wavelengths are between 0.5 and 1.8 um (strict convexity of the wave number).
* **C127 A fibre loaded from a D table has the dispersion of the table** – refuted after set_dispersion_function: the table of the file is ignored in favour of the old function; proved otherwise, for every least-squares fit.
* **C128 Effective-index tables give the propagation constant 2 pi n / lambda** – refuted: the table is placed at 3e8/lambda while the pulse grid uses c, so for n = a + b/lambda^2 the result is exactly (c/3e8)^3 = 0.9979 times the dispersion of the index (C128_cauchy_partial, C128_speed_of_light_refuted); decreasing wavelengths raise; proved: curve through the table at 3e8/lambda, zero for a constant index.
* **C131 Raman response functions are the published ones** – simple kernel proved to be the published one; refuted for the default kernel: the factor of the isotropic part is inverted, so the boson peak gets more than half of the area (about 70 per cent with the default time constants) instead of 21 per cent.
* **C134 Amplitudes of beams carry the given power** – refuted for rtP_to_a: it ignores z, so its field carries P*(1+(2z/b)^2), twice the power at the Rayleigh range; proved for rtP_to_a_2 and the waveguide.
* **C137 Both Raman computations describe the same medium** – refuted: with the default (non-simple) response and the switch on, the first call uses the f_R given by the user and stores 0.245, so the next call uses another response at every frequency but the centre (C137_repeat_refuted). Proved: transform, centre value, sign, limit of the sampled response for both kernels, and the agreement for the simple kernel with explicit terms.
* **C138 PRE_FFTSHIFT changes the speed, not the result** – refuted for odd NPTS (C138_odd_refuted: with the switch on pulse_out is one sample off, with it off it is the last column on every grid, C138_off_output); proved for every even grid as equality of complete runs (C138_prefftshift), and the shipped values give the model used elsewhere (C138_shipped).
* **C142 Spectra can be written to and generated from files** – refuted: both methods raise AttributeError on every pulse, write_frog for get_AW (C142_write_frog_refuted), gen_OSA for self.c (C142_gen_osa_refuted), the latter after the time window was changed, so that calc_epp reports another energy (C142_gen_osa_energy). write_frog leaves pulse and disk alone..
* **C146 Crystal objects keep their length and their index** – refuted: with caching on, get_pulse_n keeps the index of the old temperature while get_pulse_k follows the new one, so that they disagree at every wavelength. Refuted: Boyd.load never assigns n, and stores get_n as an unbound function, so that get_n(wl) raises TypeError and get_pulse_n and get_pulse_k raise AttributeError; with caching on get_pulse_n returns the index of another crystal. Proved: the length, isolation, agreement with caching off, and what set_caching accepts..
* **C154 Returned arrays keep the precision of the computation** – refuted: the arrays are complex64; samples 1 + 2^-30 come back as 1 while pulse_out.AT keeps them. Proved: every entry is correct to 24 binary digits per part (or 2^-150) up to 2^127, exact where a float32 can hold it, zero below 2^-150 and infinite from 2^128 on..
* **C155 The computed coherence is a number close to the exact one** – refuted: in single precision the product of four magnitudes of at most 2^-39 underflows, and the result is nan although all spectra are non-zero (dark 1 THz pulse with one photon of noise per bin in a 1 ns window). Proved: with all magnitudes between 2^-30 and 2^30 and T trials the error is at most (41 + 3 T (T-1)) 2^-24..
* **C159 The split-step method converges to the solution of the propagation equation** – refuted: the columns converge to the solution of the equation with half of the propagation constants and half of the gain (C159_halved, first order, second order for eta = 2), and for every fibre with gain the last column stays away from the solution of the equation however many steps are taken (C159_refuted)..
* **C172 Widths of the analytic pulses** – sech (1.762 to 1.764 times T0) and Gaussian (1.0004 to 1.0005 times T0) proved for peak and average power; refuted for SincPulse: FWHM_ps is the width where the field, not the power, is half of its maximum, so the FWHM of the power is 0.73 to 0.74 times FWHM_ps (C172_sinc_partial, C172_sinc_refuted). The formula exp(-(t/T0)^2/2) in the docstring of GaussianPulse is not the one of the code, which is exp(-2.77 (t/T0)^2/2)..
* **C173 End point and saved positions of the integrator in double precision** – proved: an integration that returns ends between x2 and x2(1+2^-51), exactly at x2 if the last step began at zero or in the second half of the interval (C173_end); every row but two is at the rounded sum of spacings (C173_rows), which drifts by about half a unit in the last place of x2 per row (C173_drift); single-step integrations with up to 190 intervals save exactly one row more (C173_count). refuted: exact landing (C173_exact_refuted), 512 requested intervals give 514 rows (C173_extra_row_refuted), and a spacing of half a unit in the last place makes the row loop run for ever (C173_hang_refuted). Positions are modelled in IEEE binary64 without overflow; the solution and the error estimate stay exact; positions are stored in an array of doubles (dtype double or complex128)..
* **C185 A larger local error does not lead to a larger step** – refuted: next to the minimum step an error above the limit leaves a larger step than an error within it (C185_monotone_refuted, default settings). Everything else is proved.

## Status of every property

| id | title | status | scope |
|----|-------|--------|-------|
| C01 | Time/frequency field round trip | proved | all sizes >= 1, all fields |
| C02 | AW is the Fourier transform of AT on the advertised grids | partial | proved for every even NPTS; refuted for every odd NPTS (half-bin phase error on the advertised grids) |
| C03 | Parseval for the pulse fields | proved | as stated |
| C04 | Grid geometry | partial | geometry proved for all NPTS, centre bin for even NPTS; centre bin refuted for every odd NPTS |
| C05 | SI accessors agree with the ps/nm accessors | partial | uncached accessors proved (cached ones under C07); center_wavelength_mks refuted: factor 1e18 off for every pulse |
| C06 | Grid setters and getters round trip | proved | zero wavelength / zero window error branch covered; non-zero otherwise |
| C07 | Wavelength and angular-frequency grids are never stale | partial | fresh for every history that keeps the window and whose (frequency, NPTS) keys do not collide; stale grid after a window change and after a key collision refuted |
| C08 | Failed field assignment does not corrupt the pulse | proved | as stated |
| C09 | Field isolation | partial | field arrays isolated for every interleaving; cached wavelength/frequency grid arrays are handed out by reference (refuted) |
| C10 | set_epp sets the energy | proved | positive energy before the call, E >= 0 |
| C11 | Phase-only operations preserve the spectrum | proved | unwrap and polyfit are arbitrary functions |
| C12 | Chirps compose and undo | proved | as stated |
| C13 | calc_epp is unchanged by chirp_pulse_W | partial | holds when the two end samples carry equal power before and after; refuted in general (trapezoid rule on a periodic grid) |
| C14 | Time offset is a circular shift | partial | circular shift, additivity proved for all sizes; the direction (later) is refuted: a positive offset moves the pulse to earlier T_ps |
| C15 | expand_time_window embeds the field | proved | as stated |
| C16 | expand_time_window is atomic | partial | refuted: after an error the old field is already lost; the no-field branch is proved |
| C17 | Spectrum rotation | proved | as stated |
| C18 | Band-pass filter | proved | as stated |
| C19 | Cloning | proved | as stated |
| C20 | Dictionary round trip | proved | as stated |
| C21 | Sub-pulse extraction | proved | as stated |
| C22 | Spectral centroid | proved | as stated |
| C23 | Intensity autocorrelation | partial | holds only when every |A(t)| is 0 or 1; scaling and symmetry are refuted in general |
| C24 | Analytic pulses have the requested power | partial | peak powers and average powers proved; the sinc shape with an average power request is refuted |
| C25 | CW pulse | partial | even NPTS proved for offsets inside the grid; odd NPTS refuted; refuted for offsets below the grid (the line wraps round), offsets above it raise IndexError |
| C26 | Noise | partial | add_noise proved; the uniform phase of NoisePulse is refuted (its exponent is real) |
| C27 | Propagation constant is referenced to the pulse frame | partial | even NPTS proved for GVD, n and D formats; odd NPTS refuted; unknown formats return -1 |
| C28 | Beta2 recovers the dispersion coefficient | proved | as stated |
| C29 | Dispersion units | partial | per-km proved for generate_fiber and the data base; data base entries in any other unit are silently loaded with zero dispersion (refuted) |
| C30 | Gain | proved | as stated |
| C31 | Fibre instances are independent | partial | non-interference proved for interleavings that do not write into the class-level dictionary; refuted otherwise |
| C32 | DTabulationToBetas does not modify its argument | partial | refuted: the caller's D column is multiplied by 1e-6; exact effect proved |
| C33 | get_betas is repeatable | proved | user dispersion functions are pure functions of z |
| C34 | D tabulation conversion | proved | polyfit is an arbitrary function |
| C35 | Adaptive integration terminates | proved | exact arithmetic for the lengths; in double precision: C170 |
| C36 | Adaptive step stays usable | proved | as stated |
| C37 | Zero-length segment is harmless | partial | refuted: the stored step becomes 0 and the next call never returns |
| C38 | Integrated distance equals the requested distance | partial | never less than requested; exact unless a remainder of at most 2*dz_min is left; overshoot refuted |
| C39 | Local error control | partial | all non-NaN errors proved; NaN errors are accepted (refuted) |
| C40 | Dispersion operator cache is coherent | proved | arbitrary segment lists, parameters may change between segments |
| C41 | Linear propagation is exact | proved | integrator and propagate; the integrated distance can exceed the request (see C38) |
| C42 | Richardson combination preserves agreement | proved | as stated |
| C43 | propagate output bookkeeping | partial | even grids proved; refuted for odd grids, where pulse_out is rotated by one sample |
| C44 | Kerr operator | proved | as stated |
| C45 | Global phase equivariance | proved | self-steepening disabled (its division by A+1e-20 is not phase covariant) |
| C46 | Time-translation equivariance | proved | as stated |
| C47 | Split-step method is lossless and reversible | proved | as stated |
| C48 | Both methods apply the full dispersion | partial | refuted for METHOD_SSFM: half of the dispersion is applied |
| C49 | Raman response | partial | causality and normalisation proved on even grids; refuted: the default response ignores f_R, and odd grids keep a response at negative delay |
| C50 | Coherence bounds | proved | as stated |
| C51 | Gain goal reached | partial | refuted: the call always fails (pulse_out.frep does not exist) |
| C52 | Saved output is a faithful log | proved | Output(nsaves); Output() without nsaves raises on the first save |
| C53 | Integrator lands exactly on the end point | proved | rejected steps may be rounded (Rounds); other arithmetic exact; positions in double precision: C173 |
| C54 | Step acceptance | proved | rejected steps may be rounded (Rounds) |
| C55 | Stepping terminates | proved | at x = 0 under the hypothesis that tiny products underflow to zero |
| C56 | Dense output interpolates the step | proved | as stated |
| C57 | Dense output is on the requested uniform grid | partial | every saved position is a grid point except the position after the second step and the end point; single-step integrations give the full grid; refuted: y'=1 in two steps leaves grid points out; positions in double precision: C173 |
| C58 | Trivial equations integrate | partial | refuted: y' = 0 raises for every initial value (0/0 in the error estimate) |
| C59 | Butcher tableau consistency | proved | row sums, quadrature conditions and both error estimates; exact decimal values of the literals |
| C60 | Integrations are independent | partial | independent of every history whose last integration returned; refuted after a failed integration (class-level reject flag) |
| C61 | Poling period satisfies quasi phase matching | proved | crystal length may be None; a period that is infinite or NaN is outside the statement |
| C62 | Birefringent phase matching | proved | positive wavelengths and indices; the converse needs different principal indices at the pump |
| C63 | Mixed index lies between the principal indices | proved | positive principal indices |
| C64 | Cached refractive index is the crystal's own | partial | holds when equal cache strings mean equal arrays; refuted for a second crystal, after a temperature change, and for the axis called "None" |
| C65 | Crystal properties are per crystal | partial | refuted: creating PPLN changes the threshold of existing crystals; holds for AgGaSe2 and after the first PPLN |
| C66 | Group delay algebra and dispersion sign | partial | delay algebra proved for every index; group velocity and dispersion proved exact for polynomial indices of degree <= 10, within an explicit bound for indices with eleven derivatives, and within 1e-19 (group index) and 1e-11 ps/nm/km for PPLN between 0.5 and 4.9 um; refuted: D has the opposite sign (for PPLN between 0.5 and 1.8 um the code returns a positive number where the dispersion is negative) |
| C67 | Sellmeier index is physical | proved | 0.4-5 um, 20-250 degC, both data sources |
| C68 | Poling profile | proved | also: a period function that is not bounded below makes precompute_poling loop forever |
| C69 | Zero-padded convolution and correlation | proved | even grid sizes as quantified; for odd sizes the window is off by one bin (C69_odd_refuted) |
| C70 | Three-wave mixing conserves power and photon number | proved | waveguide beams with one index value per wave, even NPTS, matched grids |
| C71 | DFG set-up rejects overlapping grids and conserves photon energy | proved | full outcome of the constructor for usable pulses |
| C72 | Post-processing only adds phases | partial | refuted: a second call multiplies the phases into the saved fields again; the moduli part holds for every output |
| C73 | Result handles are stable | partial | refuted: all get_* calls return one shared pulse; holds for the last call of any sequence |
| C74 | Default DFG problem is integrable | partial | refuted: disable_SPM=False raises AttributeError for every problem; with True the derivative exists exactly for the known modes |
| C75 | Run reader enumerates each run once | proved | files that hold complete runs; a get_next_run call that raises skips its run |
| C76 | Gaussian beam | proved | as stated |
| C77 | Confocal matching | proved | as stated |
| C78 | Overlap integral | proved | as stated |
| C79 | Treacy compressor consistency | proved | frequencies with a real diffracted order; the weights of the stencil are the exact inverse of the Vandermonde matrix, which in double precision is badly conditioned |
| C80 | Compressor is phase only | proved | quadrature and fit are arbitrary functions |
| C81 | Field containers | partial | refuted for index 3 of calculate_overlap (IndexError); the container part is proved for every history |
| C82 | Pulse from a FROG trace | proved | trace with positive energy on the grid |
| C83 | D and beta2 convert back and forth | proved | as stated |
| C84 | generate_fiber replaces the previous configuration | partial | holds unless a dispersion or gamma function was set before (refuted then) |
| C85 | Gain spectrum fibres | partial | refuted: get_gain raises for every fibre with a gain spectrum (pulse.frep_Hz does not exist) |
| C86 | Coherence is repeatable with a seed | partial | refuted: random_seed is ignored |
| C87 | An Output object can be reused | partial | refuted: the count is not reset, old rows become zeros |
| C88 | Dispersion methods work with their default axis | partial | refuted: default axis raises ValueError on AgGaSe2; axis 'o' proved |
| C89 | Poling period can be evaluated however it was set | partial | refuted for set_pp_chirp (self.length does not exist) and for set_pp(calculate_poling_period(p, s, i)) with all three wavelengths given, which returns a plain number that pp then calls (TypeError); proved for set_pp with a tuple, a function, and the period computed with one wavelength left out |
| C90 | PPLN temperature control | proved | rise with temperature: 0.5-4 um, 20-250 degC |
| C91 | Normal dispersion of PPLN | proved | as stated |
| C92 | Phase-matching bandwidth is symmetric | proved | as stated |
| C93 | AgGaSe2 index is physical | proved | as stated |
| C94 | Power and field conversion | proved | as stated |
| C95 | Optimal overlap objective | partial | equals minus the integral from the focus to one crystal length; refuted for a focus in the crystal centre |
| C96 | Compressor dispersion order units | partial | order 1 proved, with an error bound; refuted for higher orders (factor 10^(15 n (n+1)) instead of 10^(15 (n+1))), with a grating for which order 2 is too large by more than 10^44 |
| C97 | Compressor leaves no delay | partial | refuted: the subtracted slope is the second-order coefficient, a positive delay is left for every grating whose GDD is below its delay in SI units |
| C98 | DFG set-up rejects mismatched time windows | partial | refuted with a concrete problem whose windows differ; the three grids match exactly when the windows are equal |
| C99 | Free-space mixing conserves power | partial | refuted for free-space beams with a concrete problem; holds when the waist in use is the same in all bins |
| C100 | Saved runs can be read back | partial | refuted: add_run raises for every input and library version; with old libraries the waves are left in the file with repetition rate zero and no parameter, and the writer is stuck; other parameters are untouched |
| C101 | Signal results use the signal grid | partial | refuted with a concrete problem; the grid is the signal grid exactly when the windows are equal |
| C102 | Reference frame does not matter | proved | even NPTS, matched grids |
| C103 | Common delays and phases | proved | even NPTS; delays need matched grids; exact arithmetic in the integration |
| C104 | The integrand has no memory | proved | as stated |
| C105 | Central wavenumbers belong to one container | partial | refuted: k0s is one list of the class |
| C106 | Runs keep their repetition rate | partial | refuted with a file of two runs; holds exactly for runs whose rate equals that of run 0 |
| C107 | Mixing is quadratic | proved | as stated |
| C108 | Linear constraints survive integration | proved | as stated |
| C109 | Dense output is exact for polynomials | proved | floats are idealised as real numbers; the bound is the rounding of the printed constants; C109_sharp shows that degree 7 is not reproduced |
| C110 | The integrator has order eight | proved | autonomous equations only: the nodes c_i are covered by C59 and C109; floats are idealised as real numbers; C110_sharp shows that the order is not nine |
| C111 | dechirp_pulse and remove_time_delay undo chirp and delay | proved | np.unwrap is modelled exactly; np.polyfit is any least-squares fit (C111_least_squares shows that these reproduce polynomials) |
| C112 | Spectrogram axes and values | partial | refuted: the frequency axis is mirrored about the centre frequency, row f shows the spectrum at 2·f0 − f; a concrete four-point pulse is the witness. Proved: exact value of every entry, the centre row, both axes, the time axis, scaling and errors |
| C113 | Interpolation onto a new centre wavelength | partial | refuted: the energy is not kept for moves by a fraction of a bin, two opposite lines lose three quarters of it. Proved: value of every sample, exact shift and exact energy for whole bins, upper bounds for energy and samples, errors. The positive time window makes the grid sorted; a stale W_mks cache is excluded by hypothesis (see C07) |
| C114 | RK4IP is of fourth order and the accepted adaptive step of fifth | proved | with self-steepening the field must exceed the threshold 1e-15 everywhere, otherwise the operator is not even continuous; the equation contains the regularised division of the code |
| C115 | The nonlinear operator is the right-hand side of the propagation equation | partial | refuted: where |A| <= 1e-15 one of the two self-steepening terms is dropped, so at a zero of the field the operator times the field vanishes although the right-hand side does not. Proved: equality without self-steepening, error of at most 1.0001e-5 times the term above the threshold, exact defect below it |
| C116 | propagate converges to the solution of the propagation equation | proved | exact arithmetic; without self-steepening (with it the operator is discontinuous, see C115); odd grids rotate the field between segments (C43) |
| C117 | Energy of propagated pulses follows the gain | proved | exact arithmetic; without self-steepening |
| C118 | Integrations converge to the exact solution | proved | exact arithmetic with the literals of the code; forward integration; the constants C and h0 depend on the equation only |
| C119 | Rows between the steps follow the exact solution | partial | refuted: rows inside the second step are extrapolated backwards from the third (Output.out saves only its end when nstp == 1): for y' = 1000(x-7/8)^7 with absolute tolerance 1 a row is off by more than 5 while the result is right to 20 digits (C119_row_refuted). Proved for all other rows, and for all rows if the second step is not longer than the spacing of the rows; forward integration |
| C120 | Jumps of the right-hand side cost one order each and no more | proved | exact arithmetic with the literals of the code; forward integration; the constants C and h0 depend on the equation only |
| C121 | Integrations of a waveguide crystal converge to the unique solution of the coupled wave equations | proved | waveguide mode, even N, disable_SPM=True (SPM raises, C74); the fields along the computed solution must stay small enough that len*exp(52*N*kappa*R*len)*1e-27*M is below the margin; exact arithmetic with the literals of the code |
| C122 | Step counters of the integrator | proved | visited is a ghost list of the positions after each step |
| C123 | Self-phase modulation has its closed form | proved | exact arithmetic; the distance of METHOD_SSFM columns can exceed the nominal one (C38); METHOD_SSFM applies half the gain (C48), hence no gain there |
| C124 | Continuous waves pick up the phase of their dispersion and power | proved | exact arithmetic; without self-steepening |
| C125 | The default settings converge to the equation with self-steepening | proved | exact arithmetic; solutions that cross the threshold are outside, there the operator is discontinuous (C115) |
| C126 | From a poling period back to the signal wavelength | partial | refuted: signal and idler have the same period, so for a pump at 800 nm no optimiser recovers both 1500 nm and 1714 nm; pumps beyond 1998 nm raise ValueError with the default bound. Proved: the error of the period is the root of the objective; with an exact optimiser the wavelength returned has the period asked for, and it is the signal itself when it lies at or below twice the pump and the wavelengths are between 0.5 and 1.8 um (strict convexity of the wave number) |
| C127 | A fibre loaded from a D table has the dispersion of the table | partial | refuted after set_dispersion_function: the table of the file is ignored in favour of the old function; proved otherwise, for every least-squares fit |
| C128 | Effective-index tables give the propagation constant 2 pi n / lambda | partial | refuted: the table is placed at 3e8/lambda while the pulse grid uses c, so for n = a + b/lambda^2 the result is exactly (c/3e8)^3 = 0.9979 times the dispersion of the index (C128_cauchy_partial, C128_speed_of_light_refuted); decreasing wavelengths raise; proved: curve through the table at 3e8/lambda, zero for a constant index |
| C129 | Tapered fibres: propagate follows dispersion and nonlinearity along the fibre | proved | as stated |
| C130 | Tapered fibres without nonlinearity: phases are left Riemann sums, so the order in n_steps is one | proved | as stated |
| C131 | Raman response functions are the published ones | partial | simple kernel proved to be the published one; refuted for the default kernel: the factor of the isotropic part is inverted, so the boson peak gets more than half of the area (about 70 per cent with the default time constants) instead of 21 per cent |
| C132 | propagate converges to the nonlinear Schrödinger equation when the time grid is refined | proved | combined with existence and convergence in the number of steps (C116); the equation has only one solution with given input; instance: the Akhmediev breather in a generated fibre |
| C133 | propagate with Raman response converges to the generalised nonlinear Schrödinger equation when the time grid is refined | proved | the sampled kernel is a Riemann sum of the continuous one, whose area is shown positive over every window; the equation has only one solution with given input; instance: pulses of every smooth shape in a fibre without dispersion, where the exact solution is given, with the default Raman response |
| C134 | Amplitudes of beams carry the given power | partial | refuted for rtP_to_a: it ignores z, so its field carries P*(1+(2z/b)^2), twice the power at the Rayleigh range; proved for rtP_to_a_2 and the waveguide |
| C135 | A run can be continued | proved | as stated |
| C136 | Reloading an unchanging fibre has no effect | proved | as stated |
| C137 | Both Raman computations describe the same medium | partial | refuted: with the default (non-simple) response and the switch on, the first call uses the f_R given by the user and stores 0.245, so the next call uses another response at every frequency but the centre (C137_repeat_refuted). Proved: transform, centre value, sign, limit of the sampled response for both kernels, and the agreement for the simple kernel with explicit terms |
| C138 | PRE_FFTSHIFT changes the speed, not the result | partial | refuted for odd NPTS (C138_odd_refuted: with the switch on pulse_out is one sample off, with it off it is the last column on every grid, C138_off_output); proved for every even grid as equality of complete runs (C138_prefftshift), and the shipped values give the model used elsewhere (C138_shipped) |
| C139 | Raman response moves pulses to the red, Kerr response leaves the centroid | proved | laws for energy and momentum of the equation (C139_law, C139_energy), conservation (C139_kerr), red shift with explicit cut-off term (C139_redshift, C139_leak), computed pulses (C139_computed, C139_computed_kerr), closed form for two lines (C139_two_lines). Self-steepening is off; the run is RK4IP and the equation is assumed to have a smooth solution, as in C132 and C133 |
| C140 | Silver gallium crystals are negative uniaxial and tune monotonically | proved | C140_sulfide, C140_selenide (order and range of the indices), C140_tuning, C140_unique (strict monotony in the angle). XTAL_AgGaS.py starts with `import exceptions`, so it can be imported under Python 2 only; its formulas are modelled as written. |
| C141 | Settings of a pulse change only through their setters | proved | C141_frame (one call), C141_history (any history), C141_rate, constructors: C141_shaped (Sech, Gaussian, Sinc), C141_frog, C141_noise, C141_cw, C141_default. |
| C142 | Spectra can be written to and generated from files | partial | refuted: both methods raise AttributeError on every pulse, write_frog for get_AW (C142_write_frog_refuted), gen_OSA for self.c (C142_gen_osa_refuted), the latter after the time window was changed, so that calc_epp reports another energy (C142_gen_osa_energy). write_frog leaves pulse and disk alone. |
| C143 | Continuous waves in a crystal | proved | C143_lines, C143_solution (also with pump at the input), C143_powers, C143_growth, C143_computed; κ is Spec.mixStrength. The general case of unequal fluxes (elliptic functions) is not stated. |
| C144 | Quasi-phase matching | proved | C144_first_order, C144_unpoled and C144_poled (the integrals), C144_qpm, C144_even, C144_sinc, C144_cancel, C144_computed (of the integrator). |
| C145 | The calculated poling period converts | proved | C145_grating (exact sum over the periods), C145_near (near the period), C145_first_order, C145_idler, C145_mismatch, C145_period, C145_converts, C145_default. The start is two lines without the noise that the constructor puts in the idler. |
| C146 | Crystal objects keep their length and their index | partial | refuted: with caching on, get_pulse_n keeps the index of the old temperature while get_pulse_k follows the new one, so that they disagree at every wavelength. Refuted: Boyd.load never assigns n, and stores get_n as an unbound function, so that get_n(wl) raises TypeError and get_pulse_n and get_pulse_k raise AttributeError; with caching on get_pulse_n returns the index of another crystal. Proved: the length, isolation, agreement with caching off, and what set_caching accepts. |
| C147 | Parametric amplification by a strong pump | proved | The validation's formula for the idler (dfg_unit_test.py:116) carries an extra factor n_signal / n_idler; C147_idler_formula proves that it is larger than the idler power of the solution, by at least that factor, whenever the signal's index is larger. |
| C148 | Phase mismatch and parametric gain | proved | as stated |
| C149 | Small changes of the input stay small on every grid | proved | Step size control fixed by the number of steps as in C116; Raman response and self-steepening switched off. |
| C150 | A fundamental soliton keeps its shape | proved | Raman response and self-steepening switched off, as in the textbook equation. |
| C151 | The time window does not matter for localised pulses | proved | Raman response and self-steepening switched off. The ends of the window need the same value of the initial field, as even pulses have. |
| C152 | The second-order soliton breathes | proved | Raman response and self-steepening switched off, as in the textbook equation. |
| C153 | Dispersion stretches a Gaussian pulse | proved | The constructor uses 2.77 for 4 ln 2; the statement uses the constant of the constructor. |
| C154 | Returned arrays keep the precision of the computation | partial | refuted: the arrays are complex64; samples 1 + 2^-30 come back as 1 while pulse_out.AT keeps them. Proved: every entry is correct to 24 binary digits per part (or 2^-150) up to 2^127, exact where a float32 can hold it, zero below 2^-150 and infinite from 2^128 on. |
| C155 | The computed coherence is a number close to the exact one | partial | refuted: in single precision the product of four magnitudes of at most 2^-39 underflows, and the result is nan although all spectra are non-zero (dark 1 THz pulse with one photon of noise per bin in a 1 ns window). Proved: with all magnitudes between 2^-30 and 2^30 and T trials the error is at most (41 + 3 T (T-1)) 2^-24. |
| C156 | Only the product of nonlinear coefficient and power matters | proved | as stated |
| C157 | Time reversal, and symmetric pulses stay symmetric | proved | as stated |
| C158 | Backward integration is conjugate forward integration | proved | as stated |
| C159 | The split-step method converges to the solution of the propagation equation | partial | refuted: the columns converge to the solution of the equation with half of the propagation constants and half of the gain (C159_halved, first order, second order for eta = 2), and for every fibre with gain the last column stays away from the solution of the equation however many steps are taken (C159_refuted). |
| C160 | The accuracy of a propagation is set by the steps it takes, whatever the tolerance | proved | Self-steepening disabled, constant gain, reload_fiber_each_step off, even number of points. The distance covered may exceed the segment when a remainder of at most twice dz_min is left (see C38). |
| C161 | Weak sidebands of a continuous wave grow, mix or stay as the theory of modulation instability says | proved | Default method, even number of points, gain 0, Raman scattering and self-steepening disabled. Concrete fibres: generated, second-order dispersion about the centre wavelength of the pulse; C161_linear and C161_propagate hold for every dispersion. |
| C162 | The Hamiltonian is conserved by a propagation, and in normal dispersion the spectrum stays bounded over any length | proved | Default method, even number of points, gain 0, Raman scattering and self-steepening disabled; concrete fibres: generated, second-order dispersion about the wavelength of the pulse. |
| C163 | No collapse: in anomalous dispersion peak power and spectral width stay bounded whatever the length and the number of points | proved | Same conditions as C162. Uses that the sum of a Lorentzian over the bins is at most 1 + T/(2*kappa), so the bound does not grow with the grid. |
| C164 | Errors made in the steps of a propagation add up and are not amplified, in single precision too | proved | Method RK4IP, self-steepening disabled. The rounding of the operations inside one Advance (FFT, exponentials) is the arbitrary error u; the binary32 theorem rounds the results of Advance and of the extrapolation. |
| C165 | The spectrum of a propagation does not depend on the centre frequency chosen for the grid | proved | Self-steepening is off: with it, gamma belongs to the centre frequency and has to be rescaled by the user when the centre is moved. |
| C166 | With self-steepening the photon number is conserved as long as the band has room | proved | The drift bound is stated with the solution that the columns converge to; S, the light outside the central third and the floor of the samples are bounds along that solution. |
| C167 | With Raman response every smooth pulse has a field that propagate converges to, for every fibre and every length | proved | C133 assumes a smooth solution; here its existence over every length is proved for every dispersion order. Self-steepening is not covered. |
| C168 | Without Raman response the result of propagate has a limit under grid refinement for every smooth pulse, every fibre and every length | proved | C132 assumes a smooth solution; here it exists for every dispersion order and every length. |
| C169 | For every smooth pulse and every fibre: centroid kept, red shift, independence of the centre frequency and stability against noise hold in the limit of fine grids | proved | C139, C149 and C165 assume a smooth solution; here it is supplied by C167 and C168. In (b) the bound uses the largest power and slope of the limit field. |
| C170 | The step control of propagate returns in double precision, up to a length that is known | proved | rounds the lengths of the step control to nearest even with subnormals; without rounding the model is that of C35 to C39 (C170_model). The growth factor is any real number in (1, 2]. The fields stay exact; the error estimates are arbitrary, so their rounding is covered. |
| C171 | Poling domains in double precision | proved | C68 in exact arithmetic; without rounding the model is that of C68 (C171_model). |
| C172 | Widths of the analytic pulses | partial | sech (1.762 to 1.764 times T0) and Gaussian (1.0004 to 1.0005 times T0) proved for peak and average power; refuted for SincPulse: FWHM_ps is the width where the field, not the power, is half of its maximum, so the FWHM of the power is 0.73 to 0.74 times FWHM_ps (C172_sinc_partial, C172_sinc_refuted). The formula exp(-(t/T0)^2/2) in the docstring of GaussianPulse is not the one of the code, which is exp(-2.77 (t/T0)^2/2). |
| C173 | End point and saved positions of the integrator in double precision | partial | proved: an integration that returns ends between x2 and x2(1+2^-51), exactly at x2 if the last step began at zero or in the second half of the interval (C173_end); every row but two is at the rounded sum of spacings (C173_rows), which drifts by about half a unit in the last place of x2 per row (C173_drift); single-step integrations with up to 190 intervals save exactly one row more (C173_count). refuted: exact landing (C173_exact_refuted), 512 requested intervals give 514 rows (C173_extra_row_refuted), and a spacing of half a unit in the last place makes the row loop run for ever (C173_hang_refuted). Positions are modelled in IEEE binary64 without overflow; the solution and the error estimate stay exact; positions are stored in an array of doubles (dtype double or complex128). |
| C174 | A fibre without nonlinearity is a chirp | proved | The distance in the phases is the integrated one: at least the length, and exactly the length where the segments are at most twice the first step (overshoot of the step control: C38). C174_third_order shows that with third order dispersion the result differs from the plain chirp, by the artificial delay only. The gain multiplies by exp(gain*L/2). |
| C175 | Parametric gain of a periodically poled crystal | proved | waveguide mode, exact arithmetic; the pump and the signal are single lines of the grid; averaging with explicit constants, the bound of the mean's error is one period |
| C176 | First-order response of a crystal to pulses | proved | waveguide mode, exact arithmetic; the three grids aligned as C69 requires |
| C177 | Four-wave mixing to first order | proved | exact arithmetic; self-steepening off; the constant of the n_steps^-5 term depends on pulse and fibre |
| C178 | The default Raman response lowers the mean frequency | proved | exact arithmetic; self-steepening off; default Raman time constants, simple_raman off; in the limit of fine grids and many steps |
| C179 | Stimulated Raman scattering: of two lines the redder one is amplified | proved | exact arithmetic; self-steepening off; default Raman time constants; fine grids, short fibres, many steps |
| C180 | Self-phase modulation broadens the spectrum by the known law | proved | Error bound C/NPTS with C depending on the field, gamma, gain and length only; the number of steps needed may depend on the grid. The field must be smooth and periodic in the time window. |
| C181 | Self-steepening moves the power to the trailing edge at the known rate | proved | First order in the distance. C depends on the field, dispersion, gain, gamma and w0 only; the length and the number of steps may depend on the pulse object. |
| C182 | Dispersion moves the power with the slope of the phase | proved | First order in the distance. The distance over which it holds and the number of steps may depend on the pulse object. |
| C183 | Frequency conversion by a strong signal | proved | C147 and C148 are the case of the strong pump, where the waves grow; here they oscillate. The closed form is for a crystal without poling. |
| C184 | A detuned pulse travels at its own group velocity and keeps its shape | proved | Second-order dispersion only, self-steepening off. C184_equation is the symmetry of the equation, for any gain, nonlinearity and response; C184_field and C184_runs are about two runs of propagate without Raman response, C184_raman with the default one. Floats are idealised as in the other convergence theorems. |
| C185 | A larger local error does not lead to a larger step | partial | refuted: next to the minimum step an error above the limit leaves a larger step than an error within it (C185_monotone_refuted, default settings). Everything else is proved |
| C186 | Similar problems have the same solution: only ratios of times and of lengths matter | proved | exact arithmetic; Raman response off or simple (the default response has a third time constant, 96 fs, written into the code); generated fibres with units ps^n/m |
| C187 | Units, phases and direction do not matter for the integrator | proved | exact arithmetic; the rounding of rejected steps has to commute with the factor l, as it does for exact arithmetic and for powers of two without underflow |
| C188 | Transforms of two-dimensional arrays | proved | axes 0 and 1; negative and invalid axes and axes of length zero are not modelled |
| C189 | Group velocities from a sampled index | proved | one-dimensional arrays; equal neighbouring wavelengths and a vanishing group index excluded |
| C190 | A warmer crystal needs a shorter poling period | proved | both data sources; the order is strict, and the witness is 1064 nm into 1550 nm at 25 and 150 degrees |
| C191 | Heating a crystal of given period moves signal and idler apart | proved | both data sources, default delta_k_L; below degeneracy, since exchanging signal and idler keeps the period (C126) |
