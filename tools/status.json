{
"C01": [
"proved",
"all sizes >= 1, all fields"
],
"C02": [
"partial",
"proved for every even NPTS; refuted for every odd NPTS (half-bin phase error on the advertised grids)"
],
"C03": [
"proved",
""
],
"C04": [
"partial",
"geometry proved for all NPTS, centre bin for even NPTS; centre bin refuted for every odd NPTS"
],
"C05": [
"partial",
"uncached accessors proved (cached ones under C07); center_wavelength_mks refuted: factor 1e18 off for every pulse"
],
"C06": [
"proved",
"zero wavelength / zero window error branch covered; non-zero otherwise"
],
"C07": [
"partial",
"fresh for every history that keeps the window and whose (frequency, NPTS) keys do not collide; stale grid after a window change and after a key collision refuted"
],
"C08": [
"proved",
""
],
"C09": [
"partial",
"field arrays isolated for every interleaving; cached wavelength/frequency grid arrays are handed out by reference (refuted)"
],
"C10": [
"proved",
"positive energy before the call, E >= 0"
],
"C11": [
"proved",
"unwrap and polyfit are arbitrary functions"
],
"C12": [
"proved",
""
],
"C13": [
"partial",
"holds when the two end samples carry equal power before and after; refuted in general (trapezoid rule on a periodic grid)"
],
"C14": [
"partial",
"circular shift, additivity proved for all sizes; the direction (later) is refuted: a positive offset moves the pulse to earlier T_ps"
],
"C15": [
"proved",
""
],
"C16": [
"partial",
"refuted: after an error the old field is already lost; the no-field branch is proved"
],
"C17": [
"proved",
""
],
"C18": [
"proved",
""
],
"C19": [
"proved",
""
],
"C20": [
"proved",
""
],
"C21": [
"proved",
""
],
"C22": [
"proved",
""
],
"C23": [
"partial",
"holds only when every |A(t)| is 0 or 1; scaling and symmetry are refuted in general"
],
"C24": [
"partial",
"peak powers and average powers proved; the sinc shape with an average power request is refuted"
],
"C25": [
"partial",
"even NPTS proved for offsets inside the grid; odd NPTS refuted; refuted for offsets below the grid (the line wraps round), offsets above it raise IndexError"
],
"C26": [
"partial",
"add_noise proved; the uniform phase of NoisePulse is refuted (its exponent is real)"
],
"C82": [
"proved",
"trace with positive energy on the grid"
],
"C27": [
"partial",
"even NPTS proved for GVD, n and D formats; odd NPTS refuted; unknown formats return -1"
],
"C28": [
"proved",
""
],
"C29": [
"partial",
"per-km proved for generate_fiber and the data base; data base entries in any other unit are silently loaded with zero dispersion (refuted)"
],
"C30": [
"proved",
""
],
"C31": [
"partial",
"non-interference proved for interleavings that do not write into the class-level dictionary; refuted otherwise"
],
"C32": [
"partial",
"refuted: the caller's D column is multiplied by 1e-6; exact effect proved"
],
"C33": [
"proved",
"user dispersion functions are pure functions of z"
],
"C34": [
"proved",
"polyfit is an arbitrary function"
],
"C83": [
"proved",
""
],
"C84": [
"partial",
"holds unless a dispersion or gamma function was set before (refuted then)"
],
"C85": [
"partial",
"refuted: get_gain raises for every fibre with a gain spectrum (pulse.frep_Hz does not exist)"
],
"C35": [
"proved",
"exact arithmetic for the lengths; in double precision: C170"
],
"C36": [
"proved",
""
],
"C37": [
"partial",
"refuted: the stored step becomes 0 and the next call never returns"
],
"C38": [
"partial",
"never less than requested; exact unless a remainder of at most 2*dz_min is left; overshoot refuted"
],
"C39": [
"partial",
"all non-NaN errors proved; NaN errors are accepted (refuted)"
],
"C40": [
"proved",
"arbitrary segment lists, parameters may change between segments"
],
"C41": [
"proved",
"integrator and propagate; the integrated distance can exceed the request (see C38)"
],
"C42": [
"proved",
""
],
"C43": [
"partial",
"even grids proved; refuted for odd grids, where pulse_out is rotated by one sample"
],
"C44": [
"proved",
""
],
"C45": [
"proved",
"self-steepening disabled (its division by A+1e-20 is not phase covariant)"
],
"C46": [
"proved",
""
],
"C47": [
"proved",
""
],
"C48": [
"partial",
"refuted for METHOD_SSFM: half of the dispersion is applied"
],
"C49": [
"partial",
"causality and normalisation proved on even grids; refuted: the default response ignores f_R, and odd grids keep a response at negative delay"
],
"C50": [
"proved",
""
],
"C51": [
"partial",
"refuted: the call always fails (pulse_out.frep does not exist)"
],
"C86": [
"partial",
"refuted: random_seed is ignored"
],
"C52": [
"proved",
"Output(nsaves); Output() without nsaves raises on the first save"
],
"C53": [
"proved",
"rejected steps may be rounded (Rounds); other arithmetic exact; positions in double precision: C173"
],
"C54": [
"proved",
"rejected steps may be rounded (Rounds)"
],
"C55": [
"proved",
"at x = 0 under the hypothesis that tiny products underflow to zero"
],
"C56": [
"proved",
""
],
"C87": [
"partial",
"refuted: the count is not reset, old rows become zeros"
],
"C57": [
"partial",
"every saved position is a grid point except the position after the second step and the end point; single-step integrations give the full grid; refuted: y'=1 in two steps leaves grid points out; positions in double precision: C173"
],
"C58": [
"partial",
"refuted: y' = 0 raises for every initial value (0/0 in the error estimate)"
],
"C59": [
"proved",
"row sums, quadrature conditions and both error estimates; exact decimal values of the literals"
],
"C60": [
"partial",
"independent of every history whose last integration returned; refuted after a failed integration (class-level reject flag)"
],
"C61": [
"proved",
"crystal length may be None; a period that is infinite or NaN is outside the statement"
],
"C62": [
"proved",
"positive wavelengths and indices; the converse needs different principal indices at the pump"
],
"C63": [
"proved",
"positive principal indices"
],
"C64": [
"partial",
"holds when equal cache strings mean equal arrays; refuted for a second crystal, after a temperature change, and for the axis called \"None\""
],
"C65": [
"partial",
"refuted: creating PPLN changes the threshold of existing crystals; holds for AgGaSe2 and after the first PPLN"
],
"C66": [
"partial",
"delay algebra proved for every index; group velocity and dispersion proved exact for polynomial indices of degree <= 10, within an explicit bound for indices with eleven derivatives, and within 1e-19 (group index) and 1e-11 ps/nm/km for PPLN between 0.5 and 4.9 um; refuted: D has the opposite sign (for PPLN between 0.5 and 1.8 um the code returns a positive number where the dispersion is negative)"
],
"C67": [
"proved",
"0.4-5 um, 20-250 degC, both data sources"
],
"C88": [
"partial",
"refuted: default axis raises ValueError on AgGaSe2; axis 'o' proved"
],
"C89": [
"partial",
"refuted for set_pp_chirp (self.length does not exist) and for set_pp(calculate_poling_period(p, s, i)) with all three wavelengths given, which returns a plain number that pp then calls (TypeError); proved for set_pp with a tuple, a function, and the period computed with one wavelength left out"
],
"C90": [
"proved",
"rise with temperature: 0.5-4 um, 20-250 degC"
],
"C91": [
"proved",
""
],
"C92": [
"proved",
""
],
"C93": [
"proved",
""
],
"C76": [
"proved",
""
],
"C77": [
"proved",
""
],
"C78": [
"proved",
""
],
"C79": [
"proved",
"frequencies with a real diffracted order; the weights of the stencil are the exact inverse of the Vandermonde matrix, which in double precision is badly conditioned"
],
"C80": [
"proved",
"quadrature and fit are arbitrary functions"
],
"C94": [
"proved",
""
],
"C95": [
"partial",
"equals minus the integral from the focus to one crystal length; refuted for a focus in the crystal centre"
],
"C96": [
"partial",
"order 1 proved, with an error bound; refuted for higher orders (factor 10^(15 n (n+1)) instead of 10^(15 (n+1))), with a grating for which order 2 is too large by more than 10^44"
],
"C97": [
"partial",
"refuted: the subtracted slope is the second-order coefficient, a positive delay is left for every grating whose GDD is below its delay in SI units"
],
"C69": [
"proved",
"even grid sizes as quantified; for odd sizes the window is off by one bin (C69_odd_refuted)"
],
"C70": [
"proved",
"waveguide beams with one index value per wave, even NPTS, matched grids"
],
"C74": [
"partial",
"refuted: disable_SPM=False raises AttributeError for every problem; with True the derivative exists exactly for the known modes"
],
"C99": [
"partial",
"refuted for free-space beams with a concrete problem; holds when the waist in use is the same in all bins"
],
"C68": [
"proved",
"also: a period function that is not bounded below makes precompute_poling loop forever"
],
"C71": [
"proved",
"full outcome of the constructor for usable pulses"
],
"C72": [
"partial",
"refuted: a second call multiplies the phases into the saved fields again; the moduli part holds for every output"
],
"C73": [
"partial",
"refuted: all get_* calls return one shared pulse; holds for the last call of any sequence"
],
"C98": [
"partial",
"refuted with a concrete problem whose windows differ; the three grids match exactly when the windows are equal"
],
"C101": [
"partial",
"refuted with a concrete problem; the grid is the signal grid exactly when the windows are equal"
],
"C75": [
"proved",
"files that hold complete runs; a get_next_run call that raises skips its run"
],
"C81": [
"partial",
"refuted for index 3 of calculate_overlap (IndexError); the container part is proved for every history"
],
"C100": [
"partial",
"refuted: add_run raises for every input and library version; with old libraries the waves are left in the file with repetition rate zero and no parameter, and the writer is stuck; other parameters are untouched"
],
"C102": [
"proved",
"even NPTS, matched grids"
],
"C103": [
"proved",
"even NPTS; delays need matched grids; exact arithmetic in the integration"
],
"C104": [
"proved",
""
],
"C105": [
"partial",
"refuted: k0s is one list of the class"
],
"C106": [
"partial",
"refuted with a file of two runs; holds exactly for runs whose rate equals that of run 0"
],
"C107": [
"proved",
""
],
"C108": [
"proved",
""
],
"C109": [
"proved",
"floats are idealised as real numbers; the bound is the rounding of the printed constants; C109_sharp shows that degree 7 is not reproduced"
],
"C110": [
"proved",
"autonomous equations only: the nodes c_i are covered by C59 and C109; floats are idealised as real numbers; C110_sharp shows that the order is not nine"
],
"C111": [
"proved",
"np.unwrap is modelled exactly; np.polyfit is any least-squares fit (C111_least_squares shows that these reproduce polynomials)"
],
"C112": [
"partial",
"refuted: the frequency axis is mirrored about the centre frequency, row f shows the spectrum at 2·f0 − f; a concrete four-point pulse is the witness. Proved: exact value of every entry, the centre row, both axes, the time axis, scaling and errors"
],
"C113": [
"partial",
"refuted: the energy is not kept for moves by a fraction of a bin, two opposite lines lose three quarters of it. Proved: value of every sample, exact shift and exact energy for whole bins, upper bounds for energy and samples, errors. The positive time window makes the grid sorted; a stale W_mks cache is excluded by hypothesis (see C07)"
],
"C114": [
"proved",
"with self-steepening the field must exceed the threshold 1e-15 everywhere, otherwise the operator is not even continuous; the equation contains the regularised division of the code"
],
"C115": [
"partial",
"refuted: where |A| <= 1e-15 one of the two self-steepening terms is dropped, so at a zero of the field the operator times the field vanishes although the right-hand side does not. Proved: equality without self-steepening, error of at most 1.0001e-5 times the term above the threshold, exact defect below it"
],
"C116": [
"proved",
"exact arithmetic; without self-steepening (with it the operator is discontinuous, see C115); odd grids rotate the field between segments (C43)"
],
"C117": [
"proved",
"exact arithmetic; without self-steepening"
],
"C118": [
"proved",
"exact arithmetic with the literals of the code; forward integration; the constants C and h0 depend on the equation only"
],
"C119": [
"partial",
"refuted: rows inside the second step are extrapolated backwards from the third (Output.out saves only its end when nstp == 1): for y' = 1000(x-7/8)^7 with absolute tolerance 1 a row is off by more than 5 while the result is right to 20 digits (C119_row_refuted). Proved for all other rows, and for all rows if the second step is not longer than the spacing of the rows; forward integration"
],
"C120": [
"proved",
"exact arithmetic with the literals of the code; forward integration; the constants C and h0 depend on the equation only"
],
"C121": [
"proved",
"waveguide mode, even N, disable_SPM=True (SPM raises, C74); the fields along the computed solution must stay small enough that len*exp(52*N*kappa*R*len)*1e-27*M is below the margin; exact arithmetic with the literals of the code"
],
"C122": [
"proved",
"visited is a ghost list of the positions after each step"
],
"C123": [
"proved",
"exact arithmetic; the distance of METHOD_SSFM columns can exceed the nominal one (C38); METHOD_SSFM applies half the gain (C48), hence no gain there"
],
"C124": [
"proved",
"exact arithmetic; without self-steepening"
],
"C125": [
"proved",
"exact arithmetic; solutions that cross the threshold are outside, there the operator is discontinuous (C115)"
],
"C126": [
"partial",
"refuted: signal and idler have the same period, so for a pump at 800 nm no optimiser recovers both 1500 nm and 1714 nm; pumps beyond 1998 nm raise ValueError with the default bound. Proved: the error of the period is the root of the objective; with an exact optimiser the wavelength returned has the period asked for, and it is the signal itself when it lies at or below twice the pump and the wavelengths are between 0.5 and 1.8 um (strict convexity of the wave number)"
],
"C127": [
"partial",
"refuted after set_dispersion_function: the table of the file is ignored in favour of the old function; proved otherwise, for every least-squares fit"
],
"C128": [
"partial",
"refuted: the table is placed at 3e8/lambda while the pulse grid uses c, so for n = a + b/lambda^2 the result is exactly (c/3e8)^3 = 0.9979 times the dispersion of the index (C128_cauchy_partial, C128_speed_of_light_refuted); decreasing wavelengths raise; proved: curve through the table at 3e8/lambda, zero for a constant index"
],
"C129": [
"proved",
""
],
"C130": [
"proved",
""
],
"C131": [
"partial",
"simple kernel proved to be the published one; refuted for the default kernel: the factor of the isotropic part is inverted, so the boson peak gets more than half of the area (about 70 per cent with the default time constants) instead of 21 per cent"
],
"C132": [
"proved",
"combined with existence and convergence in the number of steps (C116); the equation has only one solution with given input; instance: the Akhmediev breather in a generated fibre"
],
"C133": [
"proved",
"the sampled kernel is a Riemann sum of the continuous one, whose area is shown positive over every window; the equation has only one solution with given input; instance: pulses of every smooth shape in a fibre without dispersion, where the exact solution is given, with the default Raman response"
],
"C134": [
"partial",
"refuted for rtP_to_a: it ignores z, so its field carries P*(1+(2z/b)^2), twice the power at the Rayleigh range; proved for rtP_to_a_2 and the waveguide"
],
"C135": [
"proved",
""
],
"C136": [
"proved",
""
],
"C137": [
"partial",
"refuted: with the default (non-simple) response and the switch on, the first call uses the f_R given by the user and stores 0.245, so the next call uses another response at every frequency but the centre (C137_repeat_refuted). Proved: transform, centre value, sign, limit of the sampled response for both kernels, and the agreement for the simple kernel with explicit terms"
],
"C138": [
"partial",
"refuted for odd NPTS (C138_odd_refuted: with the switch on pulse_out is one sample off, with it off it is the last column on every grid, C138_off_output); proved for every even grid as equality of complete runs (C138_prefftshift), and the shipped values give the model used elsewhere (C138_shipped)"
],
"C139": [
"proved",
"laws for energy and momentum of the equation (C139_law, C139_energy), conservation (C139_kerr), red shift with explicit cut-off term (C139_redshift, C139_leak), computed pulses (C139_computed, C139_computed_kerr), closed form for two lines (C139_two_lines). Self-steepening is off; the run is RK4IP and the equation is assumed to have a smooth solution, as in C132 and C133"
],
"C140": [
"proved",
"C140_sulfide, C140_selenide (order and range of the indices), C140_tuning, C140_unique (strict monotony in the angle). XTAL_AgGaS.py starts with `import exceptions`, so it can be imported under Python 2 only; its formulas are modelled as written."
],
"C141": [
"proved",
"C141_frame (one call), C141_history (any history), C141_rate, constructors: C141_shaped (Sech, Gaussian, Sinc), C141_frog, C141_noise, C141_cw, C141_default."
],
"C142": [
"partial",
"refuted: both methods raise AttributeError on every pulse, write_frog for get_AW (C142_write_frog_refuted), gen_OSA for self.c (C142_gen_osa_refuted), the latter after the time window was changed, so that calc_epp reports another energy (C142_gen_osa_energy). write_frog leaves pulse and disk alone."
],
"C143": [
"proved",
"C143_lines, C143_solution (also with pump at the input), C143_powers, C143_growth, C143_computed; κ is Spec.mixStrength. The general case of unequal fluxes (elliptic functions) is not stated."
],
"C144": [
"proved",
"C144_first_order, C144_unpoled and C144_poled (the integrals), C144_qpm, C144_even, C144_sinc, C144_cancel, C144_computed (of the integrator)."
],
"C145": [
"proved",
"C145_grating (exact sum over the periods), C145_near (near the period), C145_first_order, C145_idler, C145_mismatch, C145_period, C145_converts, C145_default. The start is two lines without the noise that the constructor puts in the idler."
],
"C146": [
"partial",
"refuted: with caching on, get_pulse_n keeps the index of the old temperature while get_pulse_k follows the new one, so that they disagree at every wavelength. Refuted: Boyd.load never assigns n, and stores get_n as an unbound function, so that get_n(wl) raises TypeError and get_pulse_n and get_pulse_k raise AttributeError; with caching on get_pulse_n returns the index of another crystal. Proved: the length, isolation, agreement with caching off, and what set_caching accepts."
],
"C147": [
"proved",
"The validation's formula for the idler (dfg_unit_test.py:116) carries an extra factor n_signal / n_idler; C147_idler_formula proves that it is larger than the idler power of the solution, by at least that factor, whenever the signal's index is larger."
],
"C148": [
"proved",
""
],
"C149": [
"proved",
"Step size control fixed by the number of steps as in C116; Raman response and self-steepening switched off."
],
"C150": [
"proved",
"Raman response and self-steepening switched off, as in the textbook equation."
],
"C151": [
"proved",
"Raman response and self-steepening switched off. The ends of the window need the same value of the initial field, as even pulses have."
],
"C152": [
"proved",
"Raman response and self-steepening switched off, as in the textbook equation."
],
"C153": [
"proved",
"The constructor uses 2.77 for 4 ln 2; the statement uses the constant of the constructor."
],
"C154": [
"partial",
"refuted: the arrays are complex64; samples 1 + 2^-30 come back as 1 while pulse_out.AT keeps them. Proved: every entry is correct to 24 binary digits per part (or 2^-150) up to 2^127, exact where a float32 can hold it, zero below 2^-150 and infinite from 2^128 on."
],
"C155": [
"partial",
"refuted: in single precision the product of four magnitudes of at most 2^-39 underflows, and the result is nan although all spectra are non-zero (dark 1 THz pulse with one photon of noise per bin in a 1 ns window). Proved: with all magnitudes between 2^-30 and 2^30 and T trials the error is at most (41 + 3 T (T-1)) 2^-24."
],
"C156": [
"proved",
""
],
"C157": [
"proved",
""
],
"C158": [
"proved",
""
],
"C159": [
"partial",
"refuted: the columns converge to the solution of the equation with half of the propagation constants and half of the gain (C159_halved, first order, second order for eta = 2), and for every fibre with gain the last column stays away from the solution of the equation however many steps are taken (C159_refuted)."
],
"C160": [
"proved",
"Self-steepening disabled, constant gain, reload_fiber_each_step off, even number of points. The distance covered may exceed the segment when a remainder of at most twice dz_min is left (see C38)."
],
"C161": [
"proved",
"Default method, even number of points, gain 0, Raman scattering and self-steepening disabled. Concrete fibres: generated, second-order dispersion about the centre wavelength of the pulse; C161_linear and C161_propagate hold for every dispersion."
],
"C162": [
"proved",
"Default method, even number of points, gain 0, Raman scattering and self-steepening disabled; concrete fibres: generated, second-order dispersion about the wavelength of the pulse."
],
"C163": [
"proved",
"Same conditions as C162. Uses that the sum of a Lorentzian over the bins is at most 1 + T/(2*kappa), so the bound does not grow with the grid."
],
"C164": [
"proved",
"Method RK4IP, self-steepening disabled. The rounding of the operations inside one Advance (FFT, exponentials) is the arbitrary error u; the binary32 theorem rounds the results of Advance and of the extrapolation."
],
"C165": [
"proved",
"Self-steepening is off: with it, gamma belongs to the centre frequency and has to be rescaled by the user when the centre is moved."
],
"C166": [
"proved",
"The drift bound is stated with the solution that the columns converge to; S, the light outside the central third and the floor of the samples are bounds along that solution."
],
"C167": [
"proved",
"C133 assumes a smooth solution; here its existence over every length is proved for every dispersion order. Self-steepening is not covered."
],
"C168": [
"proved",
"C132 assumes a smooth solution; here it exists for every dispersion order and every length."
],
"C169": [
"proved",
"C139, C149 and C165 assume a smooth solution; here it is supplied by C167 and C168. In (b) the bound uses the largest power and slope of the limit field."
],
"C170": [
"proved",
"rounds the lengths of the step control to nearest even with subnormals; without rounding the model is that of C35 to C39 (C170_model). The growth factor is any real number in (1, 2]. The fields stay exact; the error estimates are arbitrary, so their rounding is covered."
],
"C171": [
"proved",
"C68 in exact arithmetic; without rounding the model is that of C68 (C171_model)."
],
"C172": [
"partial",
"sech (1.762 to 1.764 times T0) and Gaussian (1.0004 to 1.0005 times T0) proved for peak and average power; refuted for SincPulse: FWHM_ps is the width where the field, not the power, is half of its maximum, so the FWHM of the power is 0.73 to 0.74 times FWHM_ps (C172_sinc_partial, C172_sinc_refuted). The formula exp(-(t/T0)^2/2) in the docstring of GaussianPulse is not the one of the code, which is exp(-2.77 (t/T0)^2/2)."
],
"C173": [
"partial",
"proved: an integration that returns ends between x2 and x2(1+2^-51), exactly at x2 if the last step began at zero or in the second half of the interval (C173_end); every row but two is at the rounded sum of spacings (C173_rows), which drifts by about half a unit in the last place of x2 per row (C173_drift); single-step integrations with up to 190 intervals save exactly one row more (C173_count). refuted: exact landing (C173_exact_refuted), 512 requested intervals give 514 rows (C173_extra_row_refuted), and a spacing of half a unit in the last place makes the row loop run for ever (C173_hang_refuted). Positions are modelled in IEEE binary64 without overflow; the solution and the error estimate stay exact; positions are stored in an array of doubles (dtype double or complex128)."
],
"C174": [
"proved",
"The distance in the phases is the integrated one: at least the length, and exactly the length where the segments are at most twice the first step (overshoot of the step control: C38). C174_third_order shows that with third order dispersion the result differs from the plain chirp, by the artificial delay only. The gain multiplies by exp(gain*L/2)."
],
"C175": [
"proved",
"waveguide mode, exact arithmetic; the pump and the signal are single lines of the grid; averaging with explicit constants, the bound of the mean's error is one period"
],
"C176": [
"proved",
"waveguide mode, exact arithmetic; the three grids aligned as C69 requires"
],
"C177": [
"proved",
"exact arithmetic; self-steepening off; the constant of the n_steps^-5 term depends on pulse and fibre"
],
"C178": [
"proved",
"exact arithmetic; self-steepening off; default Raman time constants, simple_raman off; in the limit of fine grids and many steps"
],
"C179": [
"proved",
"exact arithmetic; self-steepening off; default Raman time constants; fine grids, short fibres, many steps"
],
"C180": [
"proved",
"Error bound C/NPTS with C depending on the field, gamma, gain and length only; the number of steps needed may depend on the grid. The field must be smooth and periodic in the time window."
],
"C181": [
"proved",
"First order in the distance. C depends on the field, dispersion, gain, gamma and w0 only; the length and the number of steps may depend on the pulse object."
],
"C182": [
"proved",
"First order in the distance. The distance over which it holds and the number of steps may depend on the pulse object."
],
"C183": [
"proved",
"C147 and C148 are the case of the strong pump, where the waves grow; here they oscillate. The closed form is for a crystal without poling."
],
"C184": [
"proved",
"Second-order dispersion only, self-steepening off. C184_equation is the symmetry of the equation, for any gain, nonlinearity and response; C184_field and C184_runs are about two runs of propagate without Raman response, C184_raman with the default one. Floats are idealised as in the other convergence theorems."
],
"C185": [
"partial",
"refuted: next to the minimum step an error above the limit leaves a larger step than an error within it (C185_monotone_refuted, default settings). Everything else is proved"
],
"C186": [
"proved",
"exact arithmetic; Raman response off or simple (the default response has a third time constant, 96 fs, written into the code); generated fibres with units ps^n/m"
],
"C187": [
"proved",
"exact arithmetic; the rounding of rejected steps has to commute with the factor l, as it does for exact arithmetic and for powers of two without underflow"
],
"C188": [
"proved",
"axes 0 and 1; negative and invalid axes and axes of length zero are not modelled"
],
"C189": [
"proved",
"one-dimensional arrays; equal neighbouring wavelengths and a vanishing group index excluded"
],
"C190": [
"proved",
"both data sources; the order is strict, and the witness is 1064 nm into 1550 nm at 25 and 150 degrees"
],
"C191": [
"proved",
"both data sources, default delta_k_L; below degeneracy, since exchanging signal and idler keeps the period (C126)"
]
}