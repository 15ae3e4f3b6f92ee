{"id": "C01", "title": "Time/frequency field round trip", "statement": "For a pulse whose grid has been set, set_AT(x) followed by reading AT returns x, and set_AW(x) followed by reading AW returns x; FFT_t and IFFT_t are mutually inverse.", "quantifier": "every grid size NPTS >= 1 (even and odd) and every complex field of that length", "why_tests_cant": "a test samples a few grid sizes and fields; the inverse law must hold for all", "anchors": ["src/pynlo/util/pynlo_ffts.py:FFT_t,IFFT_t", "src/pynlo/light/PulseBase.py:Pulse.set_AT,set_AW,AT,AW"]}
{"id": "C02", "title": "AW is the Fourier transform of AT on the advertised grids", "statement": "With the T_ps and V_THz arrays the pulse reports, AW[k] = (1/N) sum_m AT[m] exp(+i V[k] T[m]) and AT[m] = sum_k AW[k] exp(-i V[k] T[m]).", "quantifier": "every NPTS, time window and field (claim is expected for all NPTS; holds for even NPTS)", "why_tests_cant": "the phase convention can be right for one grid and wrong for another; all sizes must be covered", "anchors": ["src/pynlo/util/pynlo_ffts.py", "src/pynlo/light/PulseBase.py:Pulse.__get_T,__get_V"]}
{"id": "C03", "title": "Parseval for the pulse fields", "statement": "sum |AT|^2 = NPTS * sum |AW|^2 at all times.", "quantifier": "every grid size and field", "why_tests_cant": "an equality over all complex vectors", "anchors": ["src/pynlo/util/pynlo_ffts.py", "src/pynlo/light/PulseBase.py:Pulse.AT,AW"]}
{"id": "C04", "title": "Grid geometry", "statement": "T_ps has NPTS points spaced dT_ps = window/NPTS starting at -window/2; V_THz has NPTS points spaced 2*pi/window; W = V + 2*pi*centre; bin NPTS/2 of both T and V is zero, and dF_THz * time_window_ps = 1.", "quantifier": "every NPTS >= 2, window and centre frequency (centre-bin part: even NPTS; refuted for odd NPTS)", "why_tests_cant": "relations between arrays of every length", "anchors": ["src/pynlo/light/PulseBase.py:Pulse.__get_T,__get_V,__get_W,__get_dT,_get_dF_THz"]}
{"id": "C05", "title": "SI accessors agree with the ps/nm accessors", "statement": "Each *_mks property is its ps/THz/nm counterpart times the unit factor (T,V,W,F,dT,dF,time window,centre frequency,wavelength grid), and center_wavelength_mks is center_wavelength_nm in metres.", "quantifier": "every configured pulse", "why_tests_cant": "one unit slip is invisible unless every accessor is checked on every state", "anchors": ["src/pynlo/light/PulseBase.py:Pulse._get_*"]}
{"id": "C06", "title": "Grid setters and getters round trip", "statement": "After set_time_window_ps/s, set_frequency_window_THz/mks, set_center_wavelength_nm/m, set_NPTS, the corresponding getter (in either unit) returns the value; setting the frequency window DF makes NPTS*dF_THz = DF.", "quantifier": "every real parameter value accepted by the setter and every prior pulse state", "why_tests_cant": "must hold for all values and any prior state", "anchors": ["src/pynlo/light/PulseBase.py:Pulse.set_*"]}
{"id": "C07", "title": "Wavelength and angular-frequency grids are never stale", "statement": "Whatever sequence of setter calls and grid reads happened before, wl_nm, W_mks and F_mks describe the current centre frequency, number of points and time window.", "quantifier": "every finite history of public setter calls and grid reads", "why_tests_cant": "staleness depends on the history, of which there are infinitely many", "anchors": ["src/pynlo/light/PulseBase.py:Pulse._get_wavelength_nm,_get_W_Hz,_get_hash"]}
{"id": "C08", "title": "Failed field assignment does not corrupt the pulse", "statement": "set_AW/set_AT before any grid setter raises RuntimeError; assigning an array whose length is neither the stored length nor 1 raises ValueError and leaves an existing field unchanged; reading AW/AT before a field exists raises RuntimeError.", "quantifier": "every pulse state and every array length", "why_tests_cant": "all lengths and states", "anchors": ["src/pynlo/light/PulseBase.py:Pulse.set_AW,set_AT,_get_AW,_get_AT"]}
{"id": "C09", "title": "Field isolation", "statement": "Mutating an array previously returned by AW or AT, or one previously passed to set_AW, never changes the pulse; likewise for the grid arrays returned by wl_nm and W_mks.", "quantifier": "every interleaving of pulse calls and user writes to any array obtained from or given to the pulse", "why_tests_cant": "aliasing bugs depend on the interleaving", "anchors": ["src/pynlo/light/PulseBase.py:Pulse._get_AW,set_AW,_get_wavelength_nm,_get_W_Hz"]}
{"id": "C10", "title": "set_epp sets the energy", "statement": "After set_epp(E), calc_epp() returns E.", "quantifier": "every pulse with non-zero energy and every E >= 0", "why_tests_cant": "for all fields and grids", "anchors": ["src/pynlo/light/PulseBase.py:Pulse.set_epp,calc_epp"]}
{"id": "C11", "title": "Phase-only operations preserve the spectrum", "statement": "chirp_pulse_W, apply_phase_W, add_time_offset, dechirp_pulse and remove_time_delay leave |AW| unchanged in every bin and sum|AT|^2 unchanged, whatever polynomial the fit returns.", "quantifier": "every field, every coefficient, every result of np.unwrap / np.polyfit", "why_tests_cant": "needs all fields and all possible fit outputs", "anchors": ["src/pynlo/light/PulseBase.py:Pulse.chirp_pulse_W,apply_phase_W,add_time_offset,dechirp_pulse,remove_time_delay"]}
{"id": "C12", "title": "Chirps compose and undo", "statement": "chirp_pulse_W(a) after chirp_pulse_W(b) equals chirp_pulse_W(a+b) (GDD, TOD, FOD, common reference frequency), and chirp by the negatives restores the field exactly.", "quantifier": "every field, all coefficients, every reference frequency", "why_tests_cant": "algebraic law over all values", "anchors": ["src/pynlo/light/PulseBase.py:Pulse.chirp_pulse_W"]}
{"id": "C13", "title": "calc_epp is unchanged by chirp_pulse_W", "statement": "Applying dispersion does not change the energy reported by calc_epp().", "quantifier": "every field and every chirp", "why_tests_cant": "conservation law over all fields", "anchors": ["src/pynlo/light/PulseBase.py:Pulse.calc_epp,chirp_pulse_W"]}
{"id": "C14", "title": "Time offset is a circular shift", "statement": "add_time_offset by an integer number d of grid steps circularly shifts AT by d samples up to one global phase, and offsets add; a positive offset moves the pulse to later T_ps.", "quantifier": "every even NPTS, every field, every integer d (additivity: every real offset)", "why_tests_cant": "all fields and shifts", "anchors": ["src/pynlo/light/PulseBase.py:Pulse.add_time_offset"]}
{"id": "C15", "title": "expand_time_window embeds the field", "statement": "expand_time_window(f, loc) multiplies NPTS and the time window by 2^f, keeps dT, and puts the old field after/before/in the middle of zeros as requested; sum|AT|^2 is unchanged.", "quantifier": "every field, grid size, f >= 0 and location", "why_tests_cant": "all sizes", "anchors": ["src/pynlo/light/PulseBase.py:Pulse.expand_time_window"]}
{"id": "C16", "title": "expand_time_window is atomic", "statement": "If expand_time_window raises because of a bad location, the pulse still describes the old field.", "quantifier": "every pulse and every invalid location", "why_tests_cant": "crash point property: state after the raise", "anchors": ["src/pynlo/light/PulseBase.py:Pulse.expand_time_window"]}
{"id": "C17", "title": "Spectrum rotation", "statement": "rotate_spectrum_to_new_center_wl moves the amplitude of every bin by one common integer number of bins (circularly); the moved centre lands within half a bin of the requested frequency; |AW| values are permuted, so energy is preserved.", "quantifier": "every field, NPTS >= 2, window, wavelength", "why_tests_cant": "all fields and rounding positions", "anchors": ["src/pynlo/light/PulseBase.py:Pulse.rotate_spectrum_to_new_center_wl"]}
{"id": "C18", "title": "Band-pass filter", "statement": "filter_by_wavelength_nm zeroes exactly the bins with wavelength outside [lower, upper], leaves the others bit-identical, never increases energy, and is idempotent.", "quantifier": "every pulse with fresh grid and every pair of limits", "why_tests_cant": "all fields/limits", "anchors": ["src/pynlo/light/PulseBase.py:Pulse.filter_by_wavelength_nm"]}
{"id": "C19", "title": "Cloning", "statement": "create_cloned_pulse returns a pulse with the same NPTS, window, centre wavelength, repetition rate, AW and AT; clone_pulse into a pulse that already holds a field of another length raises.", "quantifier": "every configured pulse", "why_tests_cant": "all states", "anchors": ["src/pynlo/light/PulseBase.py:Pulse.clone_pulse,create_cloned_pulse"]}
{"id": "C20", "title": "Dictionary round trip", "statement": "load_pulse_dict(get_pulse_dict()) into a new pulse reproduces NPTS, window, centre wavelength, repetition rate and AT/AW.", "quantifier": "every configured pulse", "why_tests_cant": "all states", "anchors": ["src/pynlo/light/PulseBase.py:Pulse.get_pulse_dict,load_pulse_dict"]}
{"id": "C21", "title": "Sub-pulse extraction", "statement": "create_subset_pulse(wl, M) raises ValueError when M >= NPTS; otherwise it succeeds exactly when the M-point window (M even) around the nearest bin lies inside the grid, and then the new pulse has M points, the same bin width, and for each of its bins the same absolute frequency and amplitude as the parent bin it came from.", "quantifier": "every pulse, wavelength and M", "why_tests_cant": "index arithmetic over all sizes and positions, including Python negative-slice behaviour", "anchors": ["src/pynlo/light/PulseBase.py:Pulse.create_subset_pulse"]}
{"id": "C22", "title": "Spectral centroid", "statement": "calculate_weighted_avg_frequency_mks lies between the smallest and largest grid frequency, and is unchanged when the field is scaled by a non-zero constant.", "quantifier": "every non-zero field", "why_tests_cant": "all fields", "anchors": ["src/pynlo/light/PulseBase.py:Pulse.calculate_weighted_avg_frequency_mks"]}
{"id": "C23", "title": "Intensity autocorrelation", "statement": "calculate_intensity_autocorrelation returns sum_t P(t) P(t+tau) with P = |AT|^2; in particular scaling the field by s scales the result by s^4 and the trace is symmetric in delay.", "quantifier": "every field", "why_tests_cant": "all fields", "anchors": ["src/pynlo/light/PulseBase.py:Pulse.calculate_intensity_autocorrelation"]}
{"id": "C24", "title": "Analytic pulses have the requested power", "statement": "SechPulse/GaussianPulse/SincPulse: with power_is_avg=False the un-chirped field at T=0 has |AT|^2 = power; with power_is_avg=True the un-chirped calc_epp() * frep = power.", "quantifier": "every positive power, width, window, even NPTS (peak) / every NPTS (average)", "why_tests_cant": "all parameters", "anchors": ["src/pynlo/light/DerivedPulses.py:SechPulse,GaussianPulse,SincPulse"]}
{"id": "C25", "title": "CW pulse", "statement": "CWPulse has |AT|^2 = avg_power at every sample and its single spectral line sits at the requested absolute optical frequency, with or without an offset.", "quantifier": "every power >= 0, window, wavelength, NPTS, offset inside the grid", "why_tests_cant": "all grids/offsets", "anchors": ["src/pynlo/light/DerivedPulses.py:CWPulse.__init__"]}
{"id": "C26", "title": "Noise", "statement": "NoisePulse bins have modulus 1e-30 with random phase; add_noise with an unknown noise_type raises ValueError and leaves the field unchanged; a known type adds a term depending only on the draws.", "quantifier": "every draw of the random numbers, every pulse", "why_tests_cant": "all random outcomes", "anchors": ["src/pynlo/light/DerivedPulses.py:NoisePulse", "src/pynlo/light/PulseBase.py:Pulse.add_noise"]}
{"id": "C27", "title": "Propagation constant is referenced to the pulse frame", "statement": "For GVD and n formats get_betas is zero, with zero discrete slope, at the pulse centre bin, for every set of coefficients or any interpolated index; for D format it is a Taylor polynomial in V starting at second order.", "quantifier": "every coefficient list, every interpolator, every even NPTS >= 2 (odd refuted)", "why_tests_cant": "all dispersions", "anchors": ["src/pynlo/media/fibers/fiber.py:FiberInstance.get_betas"]}
{"id": "C28", "title": "Beta2 recovers the dispersion coefficient", "statement": "For a fibre generated with betas=[b2], Beta2(pulse) equals b2 at every grid point.", "quantifier": "every b2, fibre centre wavelength, pulse grid with NPTS >= 3", "why_tests_cant": "all values", "anchors": ["src/pynlo/media/fibers/fiber.py:FiberInstance.Beta2,get_betas,generate_fiber"]}
{"id": "C29", "title": "Dispersion units", "statement": "Coefficients given per km are equivalent to the same coefficients/1000 given per m, whether the fibre comes from generate_fiber or from the database.", "quantifier": "every coefficient list", "why_tests_cant": "all values", "anchors": ["src/pynlo/media/fibers/fiber.py:FiberInstance.generate_fiber,load_dispersion"]}
{"id": "C30", "title": "Gain", "statement": "get_gain is identically zero for a fibre generated with gain 0 and is the constant gain in every bin for a generated fibre with gain g != 0.", "quantifier": "every fibre and pulse", "why_tests_cant": "all values", "anchors": ["src/pynlo/media/fibers/fiber.py:FiberInstance.get_gain,generate_fiber"]}
{"id": "C31", "title": "Fibre instances are independent", "statement": "Configuring one FiberInstance never changes what another FiberInstance reports.", "quantifier": "every interleaving of configuration calls on two fibres", "why_tests_cant": "history property", "anchors": ["src/pynlo/media/fibers/fiber.py:FiberInstance.fiberspecs,load_from_file,set_dispersion_function,generate_fiber,load_from_db"]}
{"id": "C32", "title": "DTabulationToBetas does not modify its argument", "statement": "Calling DTabulationToBetas(..., DDataIsFile=False) leaves the caller's table unchanged, so calling it twice gives the same betas.", "quantifier": "every table", "why_tests_cant": "effects on caller data for all tables", "anchors": ["src/pynlo/media/fibers/calculators.py:DTabulationToBetas"]}
{"id": "C33", "title": "get_betas is repeatable", "statement": "Calling get_betas twice in a row with the same pulse and z returns the same array.", "quantifier": "every fibre configuration in each format, every pulse", "why_tests_cant": "history property", "anchors": ["src/pynlo/media/fibers/fiber.py:FiberInstance.get_betas"]}
{"id": "C34", "title": "D tabulation conversion", "statement": "With exact polynomial data the returned coefficients are the Taylor coefficients of beta2 in angular frequency: betas[i] = i! * p_i where p is the fitted polynomial, and the reported fit equals p on the axis.", "quantifier": "every polynomial order, data set and fit result", "why_tests_cant": "all orders", "anchors": ["src/pynlo/media/fibers/calculators.py:DTabulationToBetas"]}
{"id": "C35", "title": "Adaptive integration terminates", "statement": "integrate_over_dz(delta_z) returns for every possible sequence of local-error values (including NaN and inf).", "quantifier": "every delta_z, every positive stored step and minimum step, every infinite error sequence", "why_tests_cant": "termination over all schedules", "anchors": ["src/pynlo/interactions/FourWaveMixing/SSFM.py:SSFM.integrate_over_dz"]}
{"id": "C36", "title": "Adaptive step stays usable", "statement": "After any sequence of integrate_over_dz calls with positive lengths the stored step self.dz is still positive, so the next call also terminates.", "quantifier": "every finite sequence of positive lengths and error sequences", "why_tests_cant": "invariant over histories", "anchors": ["src/pynlo/interactions/FourWaveMixing/SSFM.py:SSFM.integrate_over_dz"]}
{"id": "C37", "title": "Zero-length segment is harmless", "statement": "After integrate_over_dz(0) (a zero-length fibre) the same SSFM object can still propagate a positive length.", "quantifier": "every state and error sequence", "why_tests_cant": "non-termination cannot be observed by a test", "anchors": ["src/pynlo/interactions/FourWaveMixing/SSFM.py:SSFM.integrate_over_dz,propagate"]}
{"id": "C38", "title": "Integrated distance equals the requested distance", "statement": "The total length of accepted steps in integrate_over_dz(delta_z) is exactly delta_z.", "quantifier": "every error sequence", "why_tests_cant": "all schedules", "anchors": ["src/pynlo/interactions/FourWaveMixing/SSFM.py:SSFM.integrate_over_dz"]}
{"id": "C39", "title": "Local error control", "statement": "Every accepted step has local error at most 2*local_error, unless halving it would go below the minimum step.", "quantifier": "every error sequence", "why_tests_cant": "all schedules", "anchors": ["src/pynlo/interactions/FourWaveMixing/SSFM.py:SSFM.integrate_over_dz"]}
{"id": "C40", "title": "Dispersion operator cache is coherent", "statement": "Every linear step taken while integrating uses exp(dir*h/2*(i*beta - alpha/2)) for the current h, direction, betas and alpha, even when the fibre parameters are reloaded between segments.", "quantifier": "every sequence of segments, step sizes and reloads", "why_tests_cant": "cache staleness depends on history", "anchors": ["src/pynlo/interactions/FourWaveMixing/SSFM.py:SSFM.LinearStep,Calculate_expD,load_fiber_parameters"]}
{"id": "C41", "title": "Linear propagation is exact", "statement": "With gamma = 0, propagating multiplies every spectral bin by exp(D*(i*beta_k - alpha_k/2)) where D is the integrated distance, independent of the step sizes chosen.", "quantifier": "every field, dispersion, loss, even grid, error tolerance and number of steps", "why_tests_cant": "all inputs and step sequences", "anchors": ["src/pynlo/interactions/FourWaveMixing/SSFM.py:SSFM.propagate,integrate_over_dz,RK4IP,LinearStep"]}
{"id": "C42", "title": "Richardson combination preserves agreement", "statement": "When the coarse and fine solutions agree the accepted field is that common value, for every eta.", "quantifier": "every field and every eta != 1", "why_tests_cant": "all values", "anchors": ["src/pynlo/interactions/FourWaveMixing/SSFM.py:SSFM.integrate_over_dz"]}
{"id": "C43", "title": "propagate output bookkeeping", "statement": "propagate returns n_steps columns; AW[:,i] is the transform of AT[:,i]; AT[:,i] is the field after i+1 segments in the same time order as the input pulse; pulse_out.AT equals the last column; the input pulse is not modified.", "quantifier": "every n_steps >= 1, every field, every NPTS (order part: even NPTS, refuted for odd)", "why_tests_cant": "index and in-place-shift behaviour over all sizes and steps", "anchors": ["src/pynlo/interactions/FourWaveMixing/SSFM.py:SSFM.propagate,conditional_ifftshift,conditional_fftshift"]}
{"id": "C44", "title": "Kerr operator", "statement": "With Raman and self-steepening disabled, the nonlinear operator is i*gamma*|A|^2 at every sample.", "quantifier": "every field", "why_tests_cant": "all fields", "anchors": ["src/pynlo/interactions/FourWaveMixing/SSFM.py:SSFM.NonlinearOperator,CalculateRamanResponseFT"]}
{"id": "C45", "title": "Global phase equivariance", "statement": "Without self-steepening, multiplying the input field by a constant phase multiplies the integrated field by the same phase, and the adaptive step sequence is unchanged. The same holds for a whole call of propagate on an even grid: every column of AT takes the phase, and the solver and the fibre end in the same state.", "quantifier": "every field, phase, fibre and tolerance", "why_tests_cant": "all inputs through an unbounded adaptive loop", "anchors": ["src/pynlo/interactions/FourWaveMixing/SSFM.py:SSFM.integrate_over_dz,RK4IP,NonlinearOperator"]}
{"id": "C46", "title": "Time-translation equivariance", "statement": "Circularly shifting the input field in time circularly shifts the integrated field by the same amount, with or without Raman and self-steepening. The same holds for a whole call of propagate on an even grid: every column of AT is shifted, and the solver and the fibre end in the same state.", "quantifier": "every field, shift, fibre and tolerance", "why_tests_cant": "all inputs through an unbounded adaptive loop", "anchors": ["src/pynlo/interactions/FourWaveMixing/SSFM.py:SSFM.integrate_over_dz,RK4IP,NonlinearOperator"]}
{"id": "C47", "title": "Split-step method is lossless and reversible", "statement": "With METHOD_SSFM, no loss and a real instantaneous Kerr response, one step preserves sum|A|^2 and a backward step undoes a forward step exactly.", "quantifier": "every field and step size", "why_tests_cant": "all fields", "anchors": ["src/pynlo/interactions/FourWaveMixing/SSFM.py:SSFM.Advance"]}
{"id": "C48", "title": "Both methods apply the full dispersion", "statement": "With gamma = 0, one Advance of length h multiplies bin k by exp(h*(i*beta_k - alpha_k/2)) for METHOD_RK4IP and METHOD_SSFM.", "quantifier": "every field and step", "why_tests_cant": "all fields", "anchors": ["src/pynlo/interactions/FourWaveMixing/SSFM.py:SSFM.Advance,LinearStep,Calculate_expD"]}
{"id": "C49", "title": "Raman response", "statement": "The Raman kernel is causal (zero for T<0), the user-supplied f_R is the Raman fraction used, and disable_Raman makes R identically 1. With default arguments and the simple kernel the fraction is 0.18.", "quantifier": "every grid and parameters", "why_tests_cant": "all grids", "anchors": ["src/pynlo/interactions/FourWaveMixing/SSFM.py:SSFM.CalculateRamanResponseFT"]}
{"id": "C50", "title": "Coherence bounds", "statement": "calculate_coherence returns values in [0,1] in every bin where all fields are non-zero, exactly 1 when all trials coincide, and raises when fewer than two trials are run.", "quantifier": "every number of trials and every set of trial outputs", "why_tests_cant": "all trial outcomes", "anchors": ["src/pynlo/interactions/FourWaveMixing/SSFM.py:SSFM.calculate_coherence"]}
{"id": "C51", "title": "Gain goal reached", "statement": "propagate_to_gain_goal returns a result whose average power is within powertol of the goal.", "quantifier": "every pulse and gain fibre", "why_tests_cant": "for all inputs", "anchors": ["src/pynlo/interactions/FourWaveMixing/SSFM.py:SSFM.propagate_to_gain_goal"]}
{"id": "C52", "title": "Saved output is a faithful log", "statement": "The Output buffer holds exactly the (x,y) pairs saved, in order, across any number of automatic resizes.", "quantifier": "every sequence of saves of any length", "why_tests_cant": "unbounded sequence lengths", "anchors": ["src/pynlo/util/ode_solve/steppers.py:Output.save,save_dense,resize"]}
{"id": "C53", "title": "Integrator lands exactly on the end point", "statement": "If ODEint.integrate returns, the stepper's x equals x2 and no step overshot it; ystart holds the final y. If it raises, ystart is unchanged.", "quantifier": "every right-hand side / error-estimate sequence, either direction of integration", "why_tests_cant": "all schedules and crash points", "anchors": ["src/pynlo/util/ode_solve/steppers.py:ODEint.integrate", "src/pynlo/util/ode_solve/dopr853.py:StepperDopr853.step"]}
{"id": "C54", "title": "Step acceptance", "statement": "A step is accepted only with scaled error <= 1, the accepted step is never longer than the trial step and has its sign, the next step is within [0.333, 6] times it and not larger after a rejection. With atol = 0 the scaled error of a field that starts at zero is a number once every component has left zero.", "quantifier": "every error sequence", "why_tests_cant": "all schedules", "anchors": ["src/pynlo/util/ode_solve/dopr853_controller.py:Controller.success", "src/pynlo/util/ode_solve/dopr853.py:StepperDopr853.step"]}
{"id": "C55", "title": "Stepping terminates", "statement": "StepperDopr853.step returns or raises for every error sequence.", "quantifier": "every error sequence and position x", "why_tests_cant": "non-termination", "anchors": ["src/pynlo/util/ode_solve/dopr853.py:StepperDopr853.step"]}
{"id": "C56", "title": "Dense output interpolates the step", "statement": "dense_out equals the old value at the start of the step, the new value at its end, and has the derivatives dydx and dydxnew there.", "quantifier": "every stage vector and step size", "why_tests_cant": "all values", "anchors": ["src/pynlo/util/ode_solve/dopr853.py:StepperDopr853.prepare_dense,dense_out"]}
{"id": "C57", "title": "Dense output is on the requested uniform grid", "statement": "With dense output the saved abscissae are x1, x1+dx, x1+2dx, ... in increasing order, each interpolated from the step that contains it.", "quantifier": "every step sequence", "why_tests_cant": "depends on the number and position of steps", "anchors": ["src/pynlo/util/ode_solve/steppers.py:Output.out,ODEint.integrate"]}
{"id": "C58", "title": "Trivial equations integrate", "statement": "Integrating y' = 0 returns the initial value.", "quantifier": "every initial value and interval", "why_tests_cant": "branch on an exactly zero error estimate", "anchors": ["src/pynlo/util/ode_solve/dopr853.py:StepperDopr853.error,step"]}
{"id": "C59", "title": "Butcher tableau consistency", "statement": "The Dormand-Prince coefficients satisfy the row-sum conditions and the quadrature order conditions up to order 8 to within rounding of the literals.", "quantifier": "every stage and every order up to 8 of the finite table", "why_tests_cant": "exact rational statement about all 150 literals", "anchors": ["src/pynlo/util/ode_solve/dopr853_constants.py"]}
{"id": "C60", "title": "Integrations are independent", "statement": "The result of an integration does not depend on previous integrations in the same process.", "quantifier": "every history of previous integrations", "why_tests_cant": "history property (class-level controller)", "anchors": ["src/pynlo/util/ode_solve/dopr853.py:StepperDopr853.con", "src/pynlo/util/ode_solve/dopr853_controller.py:Controller"]}
{"id": "C61", "title": "Poling period satisfies quasi phase matching", "statement": "calculate_poling_period returns Lambda with kp - ks - ki - 2*pi/Lambda = delta_k_L/length and, when one wavelength is None, fills it so that 1/p = 1/s + 1/i; two Nones raise TypeError.", "quantifier": "every index function and every wavelength triple", "why_tests_cant": "all inputs", "anchors": ["src/pynlo/media/crystals/XTAL_PPLN.py:PPLN.calculate_poling_period"]}
{"id": "C62", "title": "Birefringent phase matching", "statement": "If phasematch returns theta then after set_theta(theta) the pump index satisfies kp = ks + ki; otherwise AttributeError is raised.", "quantifier": "every index function and wavelength triple", "why_tests_cant": "all inputs", "anchors": ["src/pynlo/media/crystals/XTAL_AgGaSe2.py:AgGaSe2.phasematch,n"]}
{"id": "C63", "title": "Mixed index lies between the principal indices", "statement": "n(wl,'mix') equals the ordinary index at theta=0, the extraordinary index at theta=pi/2, and always lies between them; unknown axis raises ValueError.", "quantifier": "every angle and wavelength with real indices", "why_tests_cant": "all angles", "anchors": ["src/pynlo/media/crystals/XTAL_AgGaSe2.py:AgGaSe2.n"]}
{"id": "C64", "title": "Cached refractive index is the crystal's own", "statement": "With caching enabled get_pulse_n returns the same array as with caching disabled.", "quantifier": "every history of get_pulse_n calls on any crystals, temperature changes and pulses", "why_tests_cant": "history property (class-level cache)", "anchors": ["src/pynlo/media/crystals/CrystalContainer.py:Crystal.get_pulse_n,set_caching", "src/pynlo/media/crystals/XTAL_PPLN.py:PPLN.set_T"]}
{"id": "C65", "title": "Crystal properties are per crystal", "statement": "Creating one crystal does not change damage_threshold_mks of another.", "quantifier": "every construction order", "why_tests_cant": "history property", "anchors": ["src/pynlo/media/crystals/CrystalContainer.py:Crystal._crystal_properties", "src/pynlo/media/crystals/XTAL_PPLN.py:PPLN.load"]}
{"id": "C66", "title": "Group delay algebra and dispersion sign", "statement": "calculate_pulse_delay_ps is antisymmetric and additive in the wavelengths, and calculate_D_ps_nm_km equals d(1/v_g)/d lambda. calculate_D_fs_um_mm is the same physical quantity in its units.", "quantifier": "every smooth index function and wavelength", "why_tests_cant": "all functions", "anchors": ["src/pynlo/media/crystals/CrystalContainer.py:Crystal.calculate_pulse_delay_ps,calculate_group_velocity_nm_ps,calculate_D_ps_nm_km"]}
{"id": "C67", "title": "Sellmeier index is physical", "statement": "PPLN.n is real and greater than 1 (no NaN) over the published validity range.", "quantifier": "every wavelength and temperature in the range", "why_tests_cant": "continuum of inputs", "anchors": ["src/pynlo/media/crystals/XTAL_PPLN.py:Gayer5PctSellmeier.n,DengSellmeier.n"]}
{"id": "C68", "title": "Poling profile", "statement": "For constant poling period P the sign returned by poling(x) is -1 exactly when x lies strictly inside the second half of its period, for every x in the crystal; precompute_poling terminates whenever the period function is bounded below by a positive number.", "quantifier": "every period, length, position; every period function", "why_tests_cant": "all positions and functions; termination", "anchors": ["src/pynlo/interactions/ThreeWaveMixing/DFG_integrand.py:dfg_problem.precompute_poling,poling"]}
{"id": "C69", "title": "Zero-padded convolution and correlation", "statement": "fftcomputer.conv and corr return, bin for bin, the linear (non-circular) convolution/correlation aligned to the grid centre.", "quantifier": "every even grid size and every pair of fields", "why_tests_cant": "all fields and sizes", "anchors": ["src/pynlo/interactions/ThreeWaveMixing/DFG_integrand.py:fftcomputer.conv,corr"]}
{"id": "C70", "title": "Three-wave mixing conserves power and photon number", "statement": "In waveguide mode with chi-2 only, the derivative returned by deriv keeps sum|Ap|^2+sum|As|^2+sum|Ai|^2 constant and satisfies the Manley-Rowe relations.", "quantifier": "every field, position z, index and poling sign, every even NPTS", "why_tests_cant": "all fields", "anchors": ["src/pynlo/interactions/ThreeWaveMixing/DFG_integrand.py:dfg_problem.deriv"]}
{"id": "C71", "title": "DFG set-up rejects overlapping grids and conserves photon energy", "statement": "The constructor raises ValueError if the pump/signal or signal/idler wavelength grids overlap or sizes differ, and the idler centre frequency is the difference of pump and signal. Each wave holds the wavenumbers n W / c of its bins relative to the centre bin, the frame speed is at least every phase velocity, and birefringent phase matching in a waveguide raises AssertionError.", "quantifier": "every pair of pulses", "why_tests_cant": "all grids", "anchors": ["src/pynlo/interactions/ThreeWaveMixing/DFG_integrand.py:dfg_problem.__init__"]}
{"id": "C72", "title": "Post-processing only adds phases", "statement": "process_stepper_output returns fields with the solver's moduli and may be called repeatedly with the same result. get_z returns the positions the solver saved.", "quantifier": "every solver output", "why_tests_cant": "all outputs; history property", "anchors": ["src/pynlo/interactions/ThreeWaveMixing/DFG_integrand.py:dfg_problem.process_stepper_output"]}
{"id": "C73", "title": "Result handles are stable", "statement": "A pulse returned by get_pump/get_sgnl/get_idlr keeps describing that field after later get_* calls.", "quantifier": "every sequence of get_* calls", "why_tests_cant": "history property", "anchors": ["src/pynlo/interactions/ThreeWaveMixing/DFG_integrand.py:dfg_results_interface.get_pump,get_sgnl,get_idlr"]}
{"id": "C74", "title": "Default DFG problem is integrable", "statement": "With the default disable_SPM=False the derivative can be evaluated.", "quantifier": "every problem", "why_tests_cant": "for all inputs", "anchors": ["src/pynlo/interactions/ThreeWaveMixing/DFG_integrand.py:dfg_problem.gen_jl,deriv"]}
{"id": "C75", "title": "Run reader enumerates each run once", "statement": "get_next_run returns runs 0,1,...,k-1 in order and then None; out-of-range run numbers raise IndexError.", "quantifier": "every number of runs and sequence of calls", "why_tests_cant": "unbounded histories", "anchors": ["src/pynlo/interactions/ThreeWaveMixing/multi_run_rw.py:DFGReader"]}
{"id": "C76", "title": "Gaussian beam", "statement": "w(z) >= w0 with equality exactly at focus, is even in z, equals sqrt(2) w0 at the Rayleigh range; the Gouy factor has modulus 1; R(z) = z(1+(zR/z)^2).", "quantifier": "every waist, z, index, wavelength", "why_tests_cant": "all reals", "anchors": ["src/pynlo/light/beam.py:OneDBeam"]}
{"id": "C77", "title": "Confocal matching", "statement": "After set_waist_to_match_confocal the beam's confocal parameter equals the other beam's in every bin; after set_waist_to_match_central_waist all colours share one confocal parameter and the centre colour has the requested waist.", "quantifier": "every pulse grid and positive index", "why_tests_cant": "all grids", "anchors": ["src/pynlo/light/beam.py:OneDBeam.set_waist_to_match_confocal,set_waist_to_match_central_waist"]}
{"id": "C78", "title": "Overlap integral", "statement": "calc_overlap_integral is in (0,1], and is 1 for identical beams.", "quantifier": "every z, positive wavenumbers and Rayleigh ranges", "why_tests_cant": "all reals", "anchors": ["src/pynlo/light/beam.py:OneDBeam.calc_overlap_integral"]}
{"id": "C79", "title": "Treacy compressor consistency", "statement": "calc_dt_dw_singlepass is the exact frequency derivative of calc_dphi_domega, and calc_compressor_gdd is twice it. The constructor converts lines per mm and degrees to the period in metres and radians, and for arrays calc_theta agrees with the scalar version wherever an order is diffracted and is g - pi/2 or g + pi/2 elsewhere. calc_compressor_HOD of order n + 1 is twice the n-th derivative of that group delay up to the error of the 101-point stencil, which is bounded in terms of the distance to the frequencies that are not diffracted; orders below 3 and above 102 raise ValueError.", "quantifier": "every grating, angle, separation and frequency with a diffracted order; for the higher orders, every order and every frequency whose neighbours within 5 GHz are diffracted", "why_tests_cant": "all reals", "anchors": ["src/pynlo/devices/grating_compressor.py:TreacyCompressor"]}
{"id": "C80", "title": "Compressor is phase only", "statement": "apply_phase_to_pulse leaves |AW| unchanged in every bin whatever the quadrature and fit return.", "quantifier": "every pulse and quadrature result", "why_tests_cant": "all fields", "anchors": ["src/pynlo/devices/grating_compressor.py:TreacyCompressor.apply_phase_to_pulse"]}
{"id": "C81", "title": "Field containers", "statement": "ThreeFields setters change only their own row and create_copy is independent of the original; beam_parameters.calculate_overlap raises ValueError for every out-of-range index. After a setter the getter of the same field shows the samples given and the other getters are unchanged.", "quantifier": "every sequence of operations", "why_tests_cant": "history/aliasing property", "anchors": ["src/pynlo/interactions/ThreeWaveMixing/field_classes.py:ThreeFields,beam_parameters"]}
{"id": "C82", "title": "Pulse from a FROG trace", "statement": "FROGPulse rescales the interpolated trace by one positive factor so that calc_epp() equals the requested energy (power, or power/frep when power_is_avg); if the trace file cannot be opened no exception is raised and the object has no field.", "quantifier": "every trace with positive energy on the grid, every grid, power, repetition rate and flag", "why_tests_cant": "all traces and grids", "anchors": ["src/pynlo/light/DerivedPulses.py:FROGPulse.__init__"]}
{"id": "C83", "title": "D and beta2 convert back and forth", "statement": "For a fibre generated with betas=[b2], tabulating (wl_nm, Beta2_to_D) and feeding the table to DTabulationToBetas reproduces beta2 = b2 at every point of the table.", "quantifier": "every b2, every grid with NPTS >= 3 and nonzero wavelengths, every fit routine", "why_tests_cant": "all values and unit conversions at once", "anchors": ["src/pynlo/media/fibers/fiber.py:FiberInstance.Beta2_to_D", "src/pynlo/media/fibers/calculators.py:DTabulationToBetas"]}
{"id": "C84", "title": "generate_fiber replaces the previous configuration", "statement": "After generate_fiber the reported dispersion, gain, gamma and length depend only on its arguments, not on how the instance was configured before.", "quantifier": "every previous configuration and every argument list", "why_tests_cant": "history property", "anchors": ["src/pynlo/media/fibers/fiber.py:FiberInstance.generate_fiber,set_dispersion_function,set_gamma_function,get_gamma,get_betas"]}
{"id": "C85", "title": "Gain spectrum fibres", "statement": "For a fibre whose data base entry carries a gain spectrum, get_gain returns that spectrum scaled to the requested output power.", "quantifier": "every gain spectrum and pulse", "why_tests_cant": "all spectra", "anchors": ["src/pynlo/media/fibers/fiber.py:FiberInstance.get_gain"]}
{"id": "C86", "title": "Coherence is repeatable with a seed", "statement": "calculate_coherence called twice with the same arguments and the same random_seed returns the same results, whatever random numbers were drawn before.", "quantifier": "every seed, every state of the global random generator", "why_tests_cant": "A test would have to compare all states of the global generator; here the dependence on the draws is exhibited in the model.", "anchors": ["src/pynlo/interactions/FourWaveMixing/SSFM.py:546-608"]}
{"id": "C87", "title": "An Output object can be reused", "statement": "Handing the same Output object to a second integration yields a log of the second integration only.", "quantifier": "every pair of integrations", "why_tests_cant": "history property over any number of saved points", "anchors": ["src/pynlo/util/ode_solve/steppers.py:Output.init"]}
{"id": "C88", "title": "Dispersion methods work with their default axis", "statement": "calculate_group_velocity_nm_ps(wl) without an axis argument returns the group velocity of the crystal, on every shipped crystal, as get_pulse_n does.", "quantifier": "every crystal angle and wavelength", "why_tests_cant": "the default None is forwarded to n of one crystal class only", "anchors": ["src/pynlo/media/crystals/CrystalContainer.py:Crystal.calculate_group_velocity_nm_ps", "src/pynlo/media/crystals/XTAL_AgGaSe2.py:AgGaSe2.n"]}
{"id": "C89", "title": "Poling period can be evaluated however it was set", "statement": "After set_pp((p,)), set_pp(f), set_pp_chirp(start, stop) or set_pp(calculate_poling_period(...)), pp(x) returns the period at x.", "quantifier": "every period, function, chirp and position; every call of calculate_poling_period that returns a period", "why_tests_cant": "failure appears only when the stored function is called", "anchors": ["src/pynlo/media/crystals/CrystalContainer.py:Crystal.set_pp_chirp", "src/pynlo/media/crystals/XTAL_PPLN.py:PPLN.set_pp", "src/pynlo/media/crystals/XTAL_PPLN.py:PPLN.calculate_poling_period"]}
{"id": "C90", "title": "PPLN temperature control", "statement": "After any sequence of set_T calls the index is that of a crystal created at the last temperature, and with the default data it rises with temperature.", "quantifier": "every history of temperatures, every wavelength in the range", "why_tests_cant": "history property and continuum of inputs", "anchors": ["src/pynlo/media/crystals/XTAL_PPLN.py:PPLN.load,set_T"]}
{"id": "C91", "title": "Normal dispersion of PPLN", "statement": "The index of PPLN strictly decreases with wavelength over the validity range, with both data sources.", "quantifier": "every temperature and pair of wavelengths in the range", "why_tests_cant": "continuum of inputs", "anchors": ["src/pynlo/media/crystals/XTAL_PPLN.py:Gayer5PctSellmeier.n,DengSellmeier.n"]}
{"id": "C92", "title": "Phase-matching bandwidth is symmetric", "statement": "calculate_mix_phasematching_bw gives the same bandwidth for the signal and for the corresponding idler.", "quantifier": "every index function, pump and signal", "why_tests_cant": "all inputs", "anchors": ["src/pynlo/media/crystals/CrystalContainer.py:Crystal.calculate_mix_phasematching_bw"]}
{"id": "C93", "title": "AgGaSe2 index is physical", "statement": "Between 1 and 17 micrometres the ordinary, extraordinary and mixed index of AgGaSe2 are real and between 1.9 and 2.8.", "quantifier": "every wavelength in the range, every angle", "why_tests_cant": "continuum of inputs", "anchors": ["src/pynlo/media/crystals/XTAL_AgGaSe2.py:AgGaSe2.n"]}
{"id": "C94", "title": "Power and field conversion", "statement": "rtP_to_a and rtP_to_a_2 of both beam classes turn the root of a power P into a field A with n eps0 c A^2 times the mode area equal to P, where the area is pi w^2 (w(z), or the waist given) for the free-space beam and the effective area for the waveguide. A waveguide made with an area in square micrometres uses that area in square metres.", "quantifier": "every waist, wavelength, index, position", "why_tests_cant": "continuum of inputs", "anchors": ["src/pynlo/light/beam.py:OneDBeam.rtP_to_a", "src/pynlo/light/high_V_waveguide.py:OneDBeam_highV_WG.rtP_to_a"]}
{"id": "C95", "title": "Optimal overlap objective", "statement": "The function minimised by calc_optimal_beam_overlap_in_crystal is minus the overlap averaged over the crystal as the DFG problem places it (focus at the centre).", "quantifier": "every pair of beams, crystal length", "why_tests_cant": "continuum of inputs", "anchors": ["src/pynlo/light/beam.py:OneDBeam.calc_optimal_beam_overlap_in_crystal"]}
{"id": "C96", "title": "Compressor dispersion order units", "statement": "calc_compressor_dnphi_domega_n differentiates the group delay of one pass (path length over the speed of light, the same for an array of frequencies as for each alone) and returns the n-th derivative in one fixed unit system for every order. For order 1 it is calc_dt_dw_singlepass in fs^2, up to an error of the Savitzky-Golay filter that is bounded in terms of the distance to the frequencies that are not diffracted.", "quantifier": "every order, grating, separation and wavelength; for order 1 every frequency whose neighbours within 1e12 rad/s are diffracted", "why_tests_cant": "all orders, gratings and frequencies; a test compares a few numbers", "anchors": ["src/pynlo/devices/grating_compressor.py:TreacyCompressor.calc_compressor_dnphi_domega_n"]}
{"id": "C97", "title": "Compressor leaves no delay", "statement": "apply_phase_to_pulse removes the group delay of the compressor, so that the phase it adds has zero slope at the centre frequency of the pulse.", "quantifier": "every grating, separation, pulse", "why_tests_cant": "exact quadrature and fit over every grid", "anchors": ["src/pynlo/devices/grating_compressor.py:TreacyCompressor.apply_phase_to_pulse"]}
{"id": "C99", "title": "Free-space mixing conserves power", "statement": "In free-space mode with chi-2 only and beams of one confocal parameter, the derivative returned by deriv keeps sum|Ap|^2+sum|As|^2+sum|Ai|^2 constant.", "quantifier": "every waist, set of matched grids, field and position", "why_tests_cant": "all fields, waists and grids", "anchors": ["src/pynlo/interactions/ThreeWaveMixing/DFG_integrand.py:dfg_problem.deriv", "src/pynlo/light/beam.py:OneDBeam.rtP_to_a_2"]}
{"id": "C98", "title": "DFG set-up rejects mismatched time windows", "statement": "The constructor refuses a pump and a signal whose time windows differ, so the frequency bins of an accepted problem satisfy the sum rule that the convolutions rely on.", "quantifier": "every pair of pulses", "why_tests_cant": "all grids", "anchors": ["src/pynlo/interactions/ThreeWaveMixing/DFG_integrand.py:dfg_problem.__init__"]}
{"id": "C101", "title": "Signal results use the signal grid", "statement": "The pulse returned by get_sgnl has the frequency grid of the input signal.", "quantifier": "every accepted problem, solver output and sequence of calls", "why_tests_cant": "all grids; history property", "anchors": ["src/pynlo/interactions/ThreeWaveMixing/DFG_integrand.py:dfg_results_interface.get_sgnl"]}
{"id": "C100", "title": "Saved runs can be read back", "statement": "A run stored with DFGWriter.add_run is returned by DFGReader with the same fields, windows, centre wavelengths and repetition rate.", "quantifier": "every solver output, parameter and number of runs", "why_tests_cant": "all outputs and histories", "anchors": ["src/pynlo/interactions/ThreeWaveMixing/multi_run_rw.py:DFGWriter.add_run,DFGReader"]}
{"id": "C102", "title": "Reference frame does not matter", "statement": "The derivative returned by deriv does not depend on the speed of the reference frame that the constructor estimates; so neither does anything an integration of the problem returns.", "quantifier": "every matched problem, speed, field and position; every tolerance, first step and output grid of the integration", "why_tests_cant": "all fields and speeds", "anchors": ["src/pynlo/interactions/ThreeWaveMixing/DFG_integrand.py:dfg_problem.deriv,approx_pulse_speed"]}
{"id": "C103", "title": "Common delays and phases", "statement": "deriv commutes with delaying the three fields by one time, and with phase shifts a, b of signal and idler and a+b of the pump. An integration of the delayed or phase-shifted input takes the same steps and returns, at every saved position and at the end, the delayed or phase-shifted fields.", "quantifier": "every matched problem, field, delay and phase; every tolerance, first step and output grid of the integration", "why_tests_cant": "all fields", "anchors": ["src/pynlo/interactions/ThreeWaveMixing/DFG_integrand.py:dfg_problem.deriv", "src/pynlo/util/ode_solve/steppers.py", "src/pynlo/util/ode_solve/dopr853.py"]}
{"id": "C104", "title": "The integrand has no memory", "statement": "The derivative depends only on position and fields, not on earlier evaluations that used the same FFT buffers.", "quantifier": "every sequence of evaluations", "why_tests_cant": "unbounded histories", "anchors": ["src/pynlo/interactions/ThreeWaveMixing/DFG_integrand.py:dfg_problem.deriv,fftcomputer"]}
{"id": "C105", "title": "Central wavenumbers belong to one container", "statement": "Changing an entry of k0s of a ThreeFields object does not change k0s of another.", "quantifier": "every pair of containers", "why_tests_cant": "aliasing property", "anchors": ["src/pynlo/interactions/ThreeWaveMixing/field_classes.py:ThreeFields"]}
{"id": "C106", "title": "Runs keep their repetition rate", "statement": "The pulses that get_run returns for run n have the repetition rate stored with run n.", "quantifier": "every file and run", "why_tests_cant": "all files", "anchors": ["src/pynlo/interactions/ThreeWaveMixing/multi_run_rw.py:DFGReader.get_run"]}
{"id": "C107", "title": "Mixing is quadratic", "statement": "Scaling the three fields by s scales the derivative by s squared, and a field that is zero in two of the three waves has zero derivative.", "quantifier": "every problem, field, position and scale", "why_tests_cant": "all fields", "anchors": ["src/pynlo/interactions/ThreeWaveMixing/DFG_integrand.py:dfg_problem.deriv"]}
{"id": "C108", "title": "Linear constraints survive integration", "statement": "If the right-hand side maps the affine space y0+U into the linear space U, then every row the integrator saves and the final ystart lie in y0+U, whether the integration succeeds or raises; in particular every linear functional that the equations conserve has its initial value in every row, and real equations with a real initial value give real rows.", "quantifier": "every problem, subspace, initial value, tolerances, trial step and number of save points", "why_tests_cant": "all equations and subspaces", "anchors": ["src/pynlo/util/ode_solve/steppers.py:ODEint.integrate", "src/pynlo/util/ode_solve/dopr853.py:StepperDopr853.step"]}
{"id": "C109", "title": "Dense output is exact for polynomials", "statement": "After an accepted step of length h on a right-hand side that is a polynomial of degree at most 6 in x, dense_out at any point of the step differs from the exact solution by at most 1e-25 times the sum of |h|^(k+1) times the size of the k-th coefficient.", "quantifier": "every polynomial of degree at most 6, step length, tolerances and interpolation point", "why_tests_cant": "continuum of polynomials and points", "anchors": ["src/pynlo/util/ode_solve/dopr853.py:StepperDopr853.dense_out", "src/pynlo/util/ode_solve/dopr853.py:StepperDopr853.prepare_dense", "src/pynlo/util/ode_solve/dopr853_constants.py"]}
{"id": "C110", "title": "The integrator has order eight", "statement": "For every autonomous equation y' = g(y) with g analytic at the start, an accepted step of length h differs from the exact solution by at most C|h|^9 plus 1e-27 times the sum of the elementary differentials times |h|^order; the two error estimates times h are O(h^6) and O(h^4) in the same sense.", "quantifier": "every analytic right-hand side, dimension, starting value, tolerances and trial step", "why_tests_cant": "all equations; asymptotic statement", "anchors": ["src/pynlo/util/ode_solve/dopr853.py:StepperDopr853.dy", "src/pynlo/util/ode_solve/dopr853.py:StepperDopr853.step", "src/pynlo/util/ode_solve/dopr853_constants.py"]}
{"id": "C111", "title": "dechirp_pulse and remove_time_delay undo chirp and delay", "statement": "For a pulse without spectral phase and with a non-zero spectrum, chirp_pulse_W(GDD) followed by dechirp_pulse restores the spectrum exactly as long as 2π·NPTS·|GDD| is below the square of the time window; add_time_offset(t) followed by remove_time_delay restores it for every t that is not an odd multiple of half the window.", "quantifier": "every grid, positive spectrum, GDD below the aliasing limit, delay and intensity threshold that keeps enough samples, and every least-squares fit", "why_tests_cant": "continuum of spectra, chirps and delays; the aliasing limit is sharp in the statement", "anchors": ["src/pynlo/light/PulseBase.py:Pulse.dechirp_pulse", "src/pynlo/light/PulseBase.py:Pulse.remove_time_delay", "src/pynlo/light/PulseBase.py:Pulse.chirp_pulse_W"]}
{"id": "C112", "title": "Spectrogram axes and values", "statement": "spectrogram('xfrog') returns NPTS//2 rows at the frequencies k/window and time_steps equally spaced delays from the first to the last time sample; the entry in row f and column d is the magnitude of the spectrum, at optical frequency f, of the field times a Gaussian gate centred at d.", "quantifier": "every pulse, gate width and number of delays", "why_tests_cant": "continuum of fields and gates; the defect is a mirrored axis that symmetric test pulses hide", "anchors": ["src/pynlo/light/PulseBase.py:Pulse.spectrogram"]}
{"id": "C113", "title": "Interpolation onto a new centre wavelength", "statement": "interpolate_to_new_center_wl returns a pulse with the requested centre and the old window, points and repetition rate whose sample at each optical frequency is the piecewise linear interpolant of the old spectrum there and zero outside the old band; the original pulse keeps its field; the energy never grows, and it is kept when the whole spectrum lies in the new band.", "quantifier": "every grid of at least two points, spectrum and new wavelength", "why_tests_cant": "continuum of spectra and wavelengths", "anchors": ["src/pynlo/light/PulseBase.py:Pulse.interpolate_to_new_center_wl"]}
{"id": "C114", "title": "RK4IP is of fourth order and the accepted adaptive step of fifth", "statement": "For method RK4IP, one Advance over h differs from the exact solution of the discretised propagation equation by O(h^5), two half steps and one full step differ by O(h^5) (so the error estimate is of fifth order), and with the default eta = 5 the field accepted by one loop iteration differs from the exact solution at distance 2h by O(h^6); a rejected iteration leaves the field alone.", "quantifier": "every grid size, field, dispersion, loss, response, direction and every solution of the equation", "why_tests_cant": "asymptotic statement over a continuum of fields and steps", "anchors": ["src/pynlo/interactions/FourWaveMixing/SSFM.py:SSFM.RK4IP", "src/pynlo/interactions/FourWaveMixing/SSFM.py:SSFM.Advance", "src/pynlo/interactions/FourWaveMixing/SSFM.py:SSFM.integrate_over_dz"]}
{"id": "C115", "title": "The nonlinear operator is the right-hand side of the propagation equation", "statement": "NonlinearOperator(A)*A equals i*gamma*A*(R conv |A|^2), plus with self-steepening -(gamma/w0)*d/dt of the product A*(R conv |A|^2) by the product rule, up to the stated effect of the regularised division.", "quantifier": "every grid size, field and parameter set", "why_tests_cant": "continuum of fields", "anchors": ["src/pynlo/interactions/FourWaveMixing/SSFM.py:SSFM.NonlinearOperator", "src/pynlo/interactions/FourWaveMixing/SSFM.py:SSFM.Deriv"]}
{"id": "C116", "title": "propagate converges to the solution of the propagation equation", "statement": "With method RK4IP, eta = 5 and self-steepening off, on an even grid and without reloading: the propagation equation with the betas, gamma, gain and Raman response the fibre and solver supply has exactly one solution starting at pulse.AT, and there are N0 and C such that for every n_steps >= N0 propagate returns and every column AT[:,i] differs from the solution at z = (i+1)*length/n_steps by at most C/n_steps^5 in every sample. With any other extrapolation order (eta positive, not 1) the bound is C/n_steps^4.", "quantifier": "every even grid, nonzero field, fibre of positive length, gain, Raman model, positive dz, dz_min and local_error", "why_tests_cant": "convergence rate over a continuum of inputs; the exact solution is not available to a test", "anchors": ["src/pynlo/interactions/FourWaveMixing/SSFM.py:SSFM.propagate", "src/pynlo/interactions/FourWaveMixing/SSFM.py:SSFM.integrate_over_dz", "src/pynlo/interactions/FourWaveMixing/SSFM.py:SSFM.RK4IP", "src/pynlo/interactions/FourWaveMixing/SSFM.py:SSFM.NonlinearOperator"]}
{"id": "C117", "title": "Energy of propagated pulses follows the gain", "statement": "In the situation of C116 the sum of |AT|^2 over column i equals the sum over the input times exp(gain*z_i) up to C/n_steps^5; in particular without gain the pulse energy is conserved to that accuracy, with every Raman model.", "quantifier": "every even grid, nonzero field, fibre of positive length, gain, Raman model, positive dz, dz_min and local_error", "why_tests_cant": "rate and constant over a continuum of inputs", "anchors": ["src/pynlo/interactions/FourWaveMixing/SSFM.py:SSFM.propagate", "src/pynlo/interactions/FourWaveMixing/SSFM.py:SSFM.CalculateRamanResponseFT", "src/pynlo/media/fibers/fiber.py:FiberInstance.get_gain"]}
{"id": "C118", "title": "Integrations converge to the exact solution", "statement": "For y' = f(x, y) with analytic f and exact solution Y on [x1, x2]: every ODEint.integrate that returns leaves in ystart a value within (x2-x1)*exp(26*L*(x2-x1))*(1e-27*M + 2.6e-27*L*hm + C*hm^8) of Y(x2), where hm is the longest step it took, L a Lipschitz constant of f near the solution and M the size of the elementary differentials; with dense = False so is every row of the log. Integrating over N equal parts in turn gives an error of order 1/N^8 whatever the tolerances.", "quantifier": "every analytic right-hand side depending on x and y, dimension, interval, tolerances, first step, hmin, output request, earlier use of the shared controller", "why_tests_cant": "a rate of convergence for a continuum of equations; step sizes are chosen at run time", "anchors": ["src/pynlo/util/ode_solve/steppers.py:ODEint.integrate", "src/pynlo/util/ode_solve/dopr853.py:StepperDopr853.step", "src/pynlo/util/ode_solve/dopr853.py:StepperDopr853.dy", "src/pynlo/util/ode_solve/dopr853_constants.py"]}
{"id": "C119", "title": "Rows between the steps follow the exact solution", "statement": "For y' = f(x, y) with analytic f and exact solution Y on [x1, x2]: every row (x, y) that ODEint.integrate saves with dense output (the default) satisfies |y - Y(x)| <= (1 + 7460*L*hm)*e(x) + hm*(7e-26*M' + 7.46e-24*L*hm + C*hm^7), where hm is the longest step taken and e(x) the error allowed by C118 for the steps.", "quantifier": "every analytic right-hand side, dimension, interval, tolerances, first step, hmin, number of rows, earlier use of the shared controller", "why_tests_cant": "a rate of convergence for a continuum of equations and positions between steps chosen at run time; which step a row is taken from depends on the run", "anchors": ["src/pynlo/util/ode_solve/steppers.py:Output.out", "src/pynlo/util/ode_solve/steppers.py:ODEint.integrate", "src/pynlo/util/ode_solve/dopr853.py:StepperDopr853.prepare_dense", "src/pynlo/util/ode_solve/dopr853.py:StepperDopr853.dense_out"]}
{"id": "C120", "title": "Jumps of the right-hand side cost one order each and no more", "statement": "For y' = f(x, y) with f analytic between finitely many positions and jumping at m-1 of them (a poled crystal), exact continuous solution Y on [x1, x2]: every ODEint.integrate that returns leaves in ystart a value whose distance to Y(x2) is at most exp(26*L*(x2-x1)) times ((x2-x1)*(1e-27*M + 2.6e-27*L'*hm + C*hm^(K+1)) + 28*(m-1)*G*hm), where hm is the longest step taken, G a bound of f, L its Lipschitz constant in the value, L' that of the pieces in both variables, K+1 <= 8 the order made use of and M a bound of the elementary differentials up to it, although the steps ignore the positions of the jumps; with dense = False so is every row of the log. Without jumps the first-order term is absent. The first order is sharp: a step across a jump can be accepted with an error of more than a twentieth of its length.", "quantifier": "every piecewise analytic right-hand side, number and position of jumps, dimension, interval, tolerances, first step, hmin, output request, earlier use of the shared controller", "why_tests_cant": "a rate of convergence for a continuum of equations; step sizes are chosen at run time and where steps fall relative to the jumps is not under the caller's control", "anchors": ["src/pynlo/util/ode_solve/steppers.py:ODEint.integrate", "src/pynlo/util/ode_solve/dopr853.py:StepperDopr853.step", "src/pynlo/util/ode_solve/dopr853.py:StepperDopr853.dy", "src/pynlo/util/ode_solve/dopr853_constants.py"]}
{"id": "C121", "title": "Integrations of a waveguide crystal converge to the unique solution of the coupled wave equations", "statement": "For a dfg_problem in waveguide mode on matched grids of an even number of frequencies, with disable_SPM=True and crystal mode PP, BPM or simple: for every input amplitudes ystart the coupled equations have exactly one solution over the whole crystal, through all domain walls, and it keeps the total power. Every ODEint.integrate of the problem over the crystal that returns with no step longer than hm ends within exp(52*N*kappa*R*len) * (len*(1e-27*M + 2.6e-27*L'*hm + C*hm^(K+1)) + 28*walls*N*kappa*R^2*hm) of it, where kappa bounds the coupling of any three frequencies, R the amplitudes, walls is the number of domain boundaries in the crystal and K+1 <= 8 the order made use of; and the total power it reports differs from that of the input by no more than 3*N*eps*(2*sqrt(P0) + eps) for an error of eps. The photons that signal and idler have gained equal those that the pump has lost up to 2*N/w*eps*(2*sqrt(P0) + eps) where w bounds the angular frequencies from below.", "quantifier": "every grid size, crystal length, period function, index and wavenumber grids, frame speed, effective area, input amplitudes, tolerances, first step, hmin, output request, earlier use of the shared controller", "why_tests_cant": "the exact solution is not available in closed form, and a rate of convergence is about all step sequences", "anchors": ["src/pynlo/interactions/ThreeWaveMixing/DFG_integrand.py:dfg_problem.deriv", "src/pynlo/interactions/ThreeWaveMixing/DFG_integrand.py:dfg_problem.poling", "src/pynlo/util/ode_solve/steppers.py:ODEint.integrate", "src/pynlo/util/ode_solve/dopr853.py:StepperDopr853.dy"]}
{"id": "C122", "title": "Step counters of the integrator", "statement": "Whether ODEint.integrate returns or raises, nok + nbad is the number of steps the stepper has taken, at most MAXSTP, and a step is counted in nok exactly if its length is the length that was tried.", "quantifier": "every right-hand side, tolerance, interval, first step and output setting", "why_tests_cant": "all runs of a loop", "anchors": ["src/pynlo/util/ode_solve/steppers.py:ODEint.integrate"]}
{"id": "C123", "title": "Self-phase modulation has its closed form", "statement": "In a fibre whose dispersion coefficients all vanish, without self-steepening and Raman scattering, propagate with the default method converges (error at most C/n_steps^5) to the textbook result: every sample of AT amplified by exp(g z/2) and rotated by gamma |AT|^2 L_eff(z), L_eff being the effective length for the gain g. With METHOD_SSFM and no gain every returned column is exactly that rotation, for every tolerance, stored step and n_steps, at a distance not shorter than the nominal one.", "quantifier": "every nonzero input field on every even grid, every gamma, gain, length, tolerance and stored step; all n_steps from some point on (every n_steps for METHOD_SSFM)", "why_tests_cant": "a limit over all step counts and all fields; a test checks one pulse at one step count within a tolerance", "anchors": ["src/pynlo/interactions/FourWaveMixing/SSFM.py:SSFM.propagate", "src/pynlo/interactions/FourWaveMixing/SSFM.py:SSFM.NonlinearOperator"]}
{"id": "C124", "title": "Continuous waves pick up the phase of their dispersion and power", "statement": "A pulse whose spectrum AW occupies a single bin k0 (CWPulse) stays in that bin: propagate without self-steepening converges (error at most C/n_steps^5) to AT exp(g z/2) exp(i beta_k0 z + i gamma r |AT|^2 L_eff(z)), for every dispersion, gain and Raman model. r, the response at frequency zero, is 1 without Raman scattering; with it, it exceeds 1 by the Raman fraction times half of the last kernel sample over the kernel's trapezoidal integral.", "quantifier": "every occupied bin, every even grid, every fibre and Raman model, every length", "why_tests_cant": "a limit over all step counts, quantified over every dispersion curve and Raman model", "anchors": ["src/pynlo/interactions/FourWaveMixing/SSFM.py:SSFM.propagate", "src/pynlo/interactions/FourWaveMixing/SSFM.py:SSFM.CalculateRamanResponseFT", "src/pynlo/light/DerivedPulses.py:CWPulse"]}
{"id": "C125", "title": "The default settings converge to the equation with self-steepening", "statement": "With the default settings (method RK4IP, eta = 5, self-steepening and Raman response on), on an even grid and without reloading: if the propagation equation with the self-steepening term as the code regularises it has a solution starting at pulse.AT none of whose samples drops to 1e-15 or below, then for every n_steps >= N0 propagate returns and every column AT[:,i] differs from the solution at z = (i+1)*length/n_steps by at most C/n_steps^5. That solution differs from the solution of the equation without the regularisation by at most the Gronwall bound for a relative error of 1.0001e-5 in one term. For a continuous wave gamma is multiplied by frequency/centre frequency.", "quantifier": "every even grid, fibre of positive length, gain, Raman model, positive dz, dz_min and local_error, every solution above the threshold", "why_tests_cant": "convergence rate over a continuum of inputs; the exact solution is not available to a test", "anchors": ["src/pynlo/interactions/FourWaveMixing/SSFM.py:SSFM.propagate", "src/pynlo/interactions/FourWaveMixing/SSFM.py:SSFM.integrate_over_dz", "src/pynlo/interactions/FourWaveMixing/SSFM.py:SSFM.RK4IP", "src/pynlo/interactions/FourWaveMixing/SSFM.py:SSFM.NonlinearOperator"]}
{"id": "C126", "title": "From a poling period back to the signal wavelength", "statement": "invert_dfg_qpm_to_signal_wl(pump, calculate_poling_period(pump, signal, None)[0]) returns the signal wavelength.", "quantifier": "every pump, every signal between the bounds, every optimiser", "why_tests_cant": "all wavelength pairs and temperatures; the optimiser is external", "anchors": ["src/pynlo/media/crystals/CrystalContainer.py:Crystal.invert_dfg_qpm_to_signal_wl", "src/pynlo/media/crystals/XTAL_PPLN.py:PPLN.calculate_poling_period"]}
{"id": "C127", "title": "A fibre loaded from a D table has the dispersion of the table", "statement": "After load_from_file, get_betas is the function of detuning whose second derivative is the beta2 of the tabulated D (-D lambda^2/(2 pi c)) and which vanishes with its slope at the pulse centre, whenever that beta2 is a polynomial of at most poly_order; length, gamma and gain are those given, whatever the instance was configured to before.", "quantifier": "every table with more distinct wavelengths than poly_order, every polynomial, pulse grid, earlier configuration, and every least-squares fit", "why_tests_cant": "all tables, polynomials and histories", "anchors": ["src/pynlo/media/fibers/fiber.py:FiberInstance.load_from_file,get_betas,get_gamma,get_gain", "src/pynlo/media/fibers/calculators.py:DTabulationToBetas"]}
{"id": "C128", "title": "Effective-index tables give the propagation constant 2 pi n / lambda", "statement": "For a fibre in n format with wavelengths x (nm) and indices y, get_betas is, in the frame of the pulse, a curve through the propagation constants 2 pi y/x at the optical frequencies c/x; a constant index gives zero.", "quantifier": "every table of at least four wavelengths, every interpolating cubic spline, every pulse grid", "why_tests_cant": "all tables and grids", "anchors": ["src/pynlo/media/fibers/fiber.py:FiberInstance.get_betas"]}
{"id": "C129", "title": "Tapered fibres: propagate follows dispersion and nonlinearity along the fibre", "statement": "For a fibre with set_dispersion_function and set_gamma_function given by smooth functions of z, propagate with reload_fiber_each_step=True returns, and the columns of AT converge as n_steps grows to the unique solution of the propagation equation with beta(z) and gamma(z); the error is at most a constant over n_steps. Energies follow exp(gain z) to the same accuracy. Without reloading the columns converge to the solution for the values at z = 0.", "quantifier": "every nonzero pulse on an even grid, every smooth taper, gain, Raman setting, all n_steps beyond a threshold; default method and extrapolation, self-steepening off", "why_tests_cant": "a limit over n_steps, for all tapers and pulses", "anchors": ["src/pynlo/interactions/FourWaveMixing/SSFM.py:SSFM.propagate,load_fiber_parameters", "src/pynlo/media/fibers/fiber.py:FiberInstance.set_dispersion_function,set_gamma_function,get_betas,get_gamma"]}
{"id": "C130", "title": "Tapered fibres without nonlinearity: phases are left Riemann sums, so the order in n_steps is one", "statement": "With gamma(z)=0 and segments no longer than twice the initial step, each spectral component after segment i is the input times exp of the sum over segments of (i beta + gain/2) times the segment length, beta taken at the start of the segment. Hence for a fibre whose beta2 grows in proportion to z no error bound of second order in 1/n_steps holds.", "quantifier": "every even-grid pulse, every position-dependent dispersion (no smoothness needed), every n_steps", "why_tests_cant": "exact for all dispersion functions and step counts; absence of any second-order bound", "anchors": ["src/pynlo/interactions/FourWaveMixing/SSFM.py:SSFM.propagate,integrate_over_dz,LinearStep", "src/pynlo/media/fibers/fiber.py:FiberInstance.get_betas"]}
{"id": "C131", "title": "Raman response functions are the published ones", "statement": "The delayed response used by the solver is, up to the normalisation to unit area, the published one: for use_simple_raman the Blow-Wood response tau1(1/tau1^2+1/tau2^2)exp(-t/tau2)sin(t/tau1), by default the Lin-Agrawal response with 79 per cent of that function and 21 per cent of the boson peak.", "quantifier": "all positive time constants; for the solver every even grid of at least four points", "why_tests_cant": "equality of response functions at all delays and for all time constants and grids; the shape is hidden by the final normalisation, so output of unit area proves nothing", "anchors": ["src/pynlo/interactions/FourWaveMixing/SSFM.py:SSFM.CalculateRamanResponseFT"]}
{"id": "C132", "title": "propagate converges to the nonlinear Schrödinger equation when the time grid is refined", "statement": "For every smooth T-periodic solution u(z,t) of the nonlinear Schrödinger equation with polynomial dispersion, gain and Kerr term, and for every order s, there are C and n0 such that for every pulse holding n >= n0 samples of u(0,.) the columns returned by SSFM.propagate, with enough steps, differ from the samples of u by at most C/n^s (Raman response and self-steepening switched off).  A generated fibre has the same polynomial on every grid with the same window.", "quantifier": "all smooth periodic solutions, all polynomial dispersions, gains, nonlinear coefficients, windows, lengths, orders s, and all even grids above n0", "why_tests_cant": "a limit in the number of points against a partial differential equation, for all solutions and all orders of convergence; tests compare a few grids with each other", "anchors": ["src/pynlo/interactions/FourWaveMixing/SSFM.py:SSFM.propagate", "src/pynlo/media/fibers/fiber.py:FiberInstance.get_betas"]}
{"id": "C133", "title": "propagate with Raman response converges to the generalised nonlinear Schrödinger equation when the time grid is refined", "statement": "For every smooth T-periodic solution u(z,t) of the generalised nonlinear Schrödinger equation with polynomial dispersion, gain and a delayed response whose kernel is the one the solver evaluates (either Raman model, any positive tau1 and tau2), there are C and n0 such that for every pulse holding n >= n0 samples of u(0,.) the columns returned by SSFM.propagate, with enough steps, differ from the samples of u by at most C/n in root mean square (self-steepening switched off).", "quantifier": "all smooth periodic solutions, all polynomial dispersions, gains, nonlinear coefficients, windows, lengths, both Raman models and all positive time constants, and all even grids above n0", "why_tests_cant": "a limit in the number of points against an integro-differential equation, for all its solutions; tests compare a few grids with each other", "anchors": ["src/pynlo/interactions/FourWaveMixing/SSFM.py:SSFM.propagate", "src/pynlo/interactions/FourWaveMixing/SSFM.py:SSFM.CalculateRamanResponseFT"]}
{"id": "C134", "title": "Amplitudes of beams carry the given power", "statement": "The field a*sqrt(P)*mode*exp(-i w t) + c.c., with a from OneDBeam.rtP_to_a_2 and the Gaussian mode of the beam a distance z from its focus, carries the power P (to 2e-9, the precision of the electric constant); rtP_to_a, which takes z as an argument, should do the same; a waveguide with effective area pi*w0^2 assigns the amplitude of the beam at its focus.", "quantifier": "all waists, wavelengths, indices, powers and distances", "why_tests_cant": "an integral over the plane for every beam and distance; a unit test can only repeat the formula", "anchors": ["src/pynlo/light/beam.py:OneDBeam._rtP_to_a", "src/pynlo/light/beam.py:OneDBeam.rtP_to_a", "src/pynlo/light/beam.py:OneDBeam.rtP_to_a_2", "src/pynlo/light/high_V_waveguide.py:OneDBeam_highV_WG.rtP_to_a"]}
{"id": "C135", "title": "A run can be continued", "statement": "If propagate(pulse, fiber of length L1, N steps) returns and its pulse_out is propagated with the same SSFM object through a further piece of length L2 of the same fibre in M steps of the same size, then the second call returns and AT, AW, z and pulse_out of the two calls, put together, are exactly those of a single call for a fibre of length L1+L2 with N+M steps, and the solver object ends in the same state.", "quantifier": "every pulse on an even grid, every fibre in every dispersion format, every N, M, L1, L2 with equal segment length, every solver setting with positive step sizes", "why_tests_cant": "A test compares a few runs to a tolerance; the claim is exact equality of the whole history (stored step, operator cache, Raman fraction, fibre object) for every input.", "anchors": ["src/pynlo/interactions/FourWaveMixing/SSFM.py:SSFM.propagate,integrate_over_dz,setup_fftw,load_fiber_parameters", "src/pynlo/media/fibers/fiber.py:FiberInstance.get_betas"]}
{"id": "C136", "title": "Reloading an unchanging fibre has no effect", "statement": "For a fibre without dispersion function and gamma function, propagate with reload_fiber_each_step=True and False do exactly the same: same result, same solver and fibre state, same exception, same termination.", "quantifier": "every fibre without position dependence in every format, every pulse on every grid, every solver, every n_steps", "why_tests_cant": "Equality of two code paths for every fibre, including fibres whose coefficients are refitted (D format) at every reload and runs that raise.", "anchors": ["src/pynlo/interactions/FourWaveMixing/SSFM.py:SSFM.propagate,load_fiber_parameters", "src/pynlo/media/fibers/fiber.py:FiberInstance.get_betas,get_gamma"]}
{"id": "C137", "title": "Both Raman computations describe the same medium", "statement": "With global_variables.USE_FREQUENCY_DOMAIN_RAMAN = True the solver uses, at each bin, the transform of the published isotropic silica response: it is 1 at the centre, never singular, and gives loss on the blue and gain on the red side. For USE_SIMPLE_RAMAN the two settings agree at each frequency up to a term falling like 1/NPTS and one falling exponentially with the time window, and repeating a call on the same object uses the same response.", "quantifier": "all time constants > 0, fractions, frequencies, even grids, windows long against tau_2, pulses and fibres", "why_tests_cant": "Agreement is a limit over grids, for every frequency and every pair of time constants; a test fixes one grid and one tolerance, and the state left behind by a first call only matters in a second one.", "anchors": ["src/pynlo/interactions/FourWaveMixing/SSFM.py:243-296", "src/pynlo/interactions/FourWaveMixing/global_variables.py:28-31"]}
{"id": "C138", "title": "PRE_FFTSHIFT changes the speed, not the result", "statement": "propagate returns the same positions, arrays, output pulse, solver state and fibre state, raises the same exception, or fails to return, whether global_variables.PRE_FFTSHIFT is True or False.", "quantifier": "all pulses, fibres, solver settings, numbers of steps, reload flags and both settings of USE_FREQUENCY_DOMAIN_RAMAN", "why_tests_cant": "The adaptive loop compares floating step errors; equality of two complete runs for every input needs a simulation between the loop states in the two array orders.", "anchors": ["src/pynlo/interactions/FourWaveMixing/SSFM.py:669-770", "src/pynlo/interactions/FourWaveMixing/SSFM.py:456-544", "src/pynlo/interactions/FourWaveMixing/global_variables.py:35"]}
{"id": "C139", "title": "Raman response moves pulses to the red, Kerr response leaves the centroid", "statement": "The centroid that calculate_weighted_avg_frequency_mks reports for the pulse returned by propagate with Raman response is not above that of the input pulse, up to an explicit term from cutting the memory at half the time window, which vanishes for wide windows, and an error of order 1/NPTS. With the Raman response switched off both centroids agree up to an error of order 1/NPTS. Dispersion of any order and constant gain do not move the centroid.", "quantifier": "all smooth periodic solutions, polynomial dispersions, gains, gamma >= 0 (any gamma without Raman), time constants > 0, Raman fractions >= 0, even grids, and all sufficiently many steps", "why_tests_cant": "The sign of the shift is a statement about every pulse shape and every dispersion; a simulation shows it for one pulse and mixes it with the error of the grid and of the steps.", "anchors": ["src/pynlo/light/PulseBase.py:856-860", "src/pynlo/interactions/FourWaveMixing/SSFM.py:243-296", "src/pynlo/interactions/FourWaveMixing/SSFM.py:404-435", "src/pynlo/interactions/FourWaveMixing/SSFM.py:456-544"]}
{"id": "C140", "title": "Silver gallium crystals are negative uniaxial and tune monotonically", "statement": "For the crystal of XTAL_AgGaS.py between 1 and 13 micrometres, and for that of XTAL_AgGaSe2.py between 1 and 17 micrometres, both principal indices are numbers and the extraordinary one is below the ordinary one (sulfide: both between 2.1 and 2.6). Turning such a crystal with set_theta from 0 to a right angle therefore lowers n(wl, 'mix') strictly, so that no two orientations in the first quadrant give the same index. From 50 to 400 micrometres the fit of XTAL_AgGaS.py gives no index at all (NaN).", "quantifier": "all wavelengths in the ranges (reals), all pairs of angles in the first quadrant", "why_tests_cant": "The order of the two indices is an inequality between sums of four fractional powers over a continuum of wavelengths; sampled wavelengths leave gaps, and the two curves do cross below 1 micrometre.", "anchors": ["src/pynlo/media/crystals/XTAL_AgGaS.py:30-142", "src/pynlo/media/crystals/XTAL_AgGaSe2.py:30-134"]}
{"id": "C141", "title": "Settings of a pulse change only through their setters", "statement": "Among all public methods of Pulse, NPTS is changed by set_NPTS, expand_time_window, clone_pulse and load_pulse_dict only, the time window by its setters, the frequency window setters and the same three, the centre by its setters and the last two, the repetition rate by set_frep_MHz and the last two, whether the calls return or raise. The rate set last is the one frep_MHz and frep_mks report. Constructors store the rate given to them; without one (Pulse(), NoisePulse, CWPulse) it is 100 MHz.", "quantifier": "all histories of public calls with any arguments and any outcome, all pulses, all constructor arguments", "why_tests_cant": "The claim ranges over all interleavings of some thirty methods, including those in which calls raise half way.", "anchors": ["src/pynlo/light/PulseBase.py:35-60", "src/pynlo/light/PulseBase.py:203-227", "src/pynlo/light/PulseBase.py:462-860", "src/pynlo/light/DerivedPulses.py:29-216"]}
{"id": "C142", "title": "Spectra can be written to and generated from files", "statement": "write_frog writes wavelength, amplitude and phase of the pulse to the given file; gen_OSA makes the pulse follow a measured spectrum; a call that fails leaves the pulse as it was.", "quantifier": "all pulses, file names and contents", "why_tests_cant": "That a method raises for every pulse and every file, and what it has changed by then, is a statement about all inputs.", "anchors": ["src/pynlo/light/PulseBase.py:878-898", "src/pynlo/light/DerivedPulses.py:219-277"]}
{"id": "C143", "title": "Continuous waves in a crystal", "statement": "In a waveguide crystal, poled or not, three continuous waves whose frequencies add up stay continuous waves: no other frequency of the three grids ever gets light. Signal and idler that enter with equal photon fluxes, phase matched and without pump, give the pump the share tanh² of the power, the argument being the rate d_eff·κ·sqrt(Wp·Ws·Wi)·f times the length travelled counted with the sign of the domains; without poling the pump grows strictly and takes all the power but a part that falls exponentially with the length. The integrator returns these amplitudes up to the rounding of its literals and a multiple of its longest step.", "quantifier": "all waveguide crystals without self-phase modulation on matched grids of an even number of bins, all triples of bins that mix, all indices, areas, phases and powers, all tolerances and output grids of the integration", "why_tests_cant": "The solution is a limit over step sizes for a continuum of powers, lengths and phases; a run shows one of them.", "anchors": ["src/pynlo/interactions/ThreeWaveMixing/DFG_integrand.py:244-282", "src/pynlo/interactions/ThreeWaveMixing/DFG_integrand.py:300-449", "src/pynlo/util/ode_solve/dopr853.py"]}
{"id": "C144", "title": "Quasi-phase matching", "statement": "The amplitude of the sum frequency of two continuous waves is d_eff·κ·Wp·|s||i| times the magnitude of the integral of sign(z)·exp(iΔz), up to a depletion of at most (d_eff·κ·Wp·z)²·P^(3/2)/4. A crystal of whole poling periods that hold the phase of the mismatch an odd number n of times gives 2/(πn) of what a phase-matched crystal does, an even number gives nothing; without poling the factor is a sinc and whole periods cancel.", "quantifier": "all waveguide crystals, mismatches, powers, phases, numbers of periods and orders n", "why_tests_cant": "The cancellation holds for every number of domains and every order; a run tests one crystal and cannot separate depletion and step errors from a wrong factor.", "anchors": ["src/pynlo/interactions/ThreeWaveMixing/DFG_integrand.py:244-282", "src/pynlo/interactions/ThreeWaveMixing/DFG_integrand.py:300-449"]}
{"id": "C145", "title": "The calculated poling period converts", "statement": "A PPLN crystal poled with the period that calculate_poling_period returns for a pump and a signal wavelength, handed to dfg_problem as a waveguide, has at these two bins and their idler bin a wave-vector mismatch of exactly 2π/period plus the set point over the length. The idler that two continuous waves generate at its end has the amplitude d_eff·κ·Wi·|p||s|·(2/π)·length·|sinc(set point/2)|, up to (2 + |set point|/6) periods in place of the length and a depletion term. For every pump and longer signal in the range of the crystal the calculation returns a positive period when the crystal is long against the set point. The default set point 3.2 gives 0.625 of the amplitude of a set point of 0, that is two fifths of the power.", "quantifier": "all temperatures between 20 and 250 degrees, both Sellmeier sources, all grids between 400 and 5000 nm that do not overlap, all lengths, set points, areas, powers and triples of bins that mix; any number of poling periods, whole or not", "why_tests_cant": "The claim joins three functions over a continuum of wavelengths, temperatures and lengths; one run has rounding, depletion and a last incomplete period in its result and cannot tell a wrong period from these.", "anchors": ["src/pynlo/media/crystals/XTAL_PPLN.py:82-160", "src/pynlo/media/crystals/CrystalContainer.py:40-48", "src/pynlo/interactions/ThreeWaveMixing/DFG_integrand.py:36-282", "src/pynlo/interactions/ThreeWaveMixing/DFG_integrand.py:300-449"]}
{"id": "C146", "title": "Crystal objects keep their length and their index", "statement": "A crystal keeps the length it was created with (one metre by default), in metres and in nanometres. get_pulse_k of a crystal depends on that crystal only, and so does get_pulse_n while its caching is off. The two agree: wavenumber times wavelength is 2 pi times the index. A crystal with Boyd.load applied has the constant index 2. A setter of one kind of crystal (temperature, angle, poling) raises AttributeError on a crystal of another kind and changes nothing. A beam in a uniaxial crystal sees the ordinary index, the extraordinary one or the mixture according to its own axis.", "quantifier": "every program of constructions, Boyd.load, set_T, set_theta, set_pp, set_pp_chirp, set_caching, get_pulse_n and get_pulse_k on any number of crystals; every grid without a zero wavelength and every axis", "why_tests_cant": "The claims are about all histories of calls on several objects that share a class-level cache; a test fixes one history.", "anchors": ["src/pynlo/media/crystals/CrystalContainer.py:29-77", "src/pynlo/media/crystals/CrystalContainer.py:176-194", "src/pynlo/media/crystals/Boyd.py:25-34", "src/pynlo/light/beam.py:167-171", "src/pynlo/light/high_V_waveguide.py:84-88"]}
{"id": "C147", "title": "Parametric amplification by a strong pump", "statement": "With the wave vectors matched, a signal at one frequency bin grows in an unpoled crystal like cosh(g z), where g is the gain of Boyd's formula that the repository's own validation uses. The relative error is at most g z times the ratio of signal to pump photons times sinh(g z)^2. Every pump photon lost gives one signal and one idler photon. At any mismatch or poling no signal grows faster than cosh(g z) and no idler faster than sinh(g z). The output of an integration that returns satisfies the same with the error of the integrator added.", "quantifier": "every guided problem with positive indices, every triple of bins with matching frequencies, every pump and signal amplitude, every position in the crystal", "why_tests_cant": "The claim holds for every index, length, coupling and power and bounds the exact solution; the repository's test compares one random run with an approximate formula within 1 or 2 percent.", "anchors": ["src/pynlo/interactions/ThreeWaveMixing/DFG_integrand.py:244-282", "src/pynlo/interactions/ThreeWaveMixing/DFG_integrand.py:300-449", "src/validation/dfg_unit_test.py:38-117", "src/pynlo/util/ode_solve/dopr853.py"]}
{"id": "C148", "title": "Phase mismatch and parametric gain", "statement": "In an unpoled crystal with mismatch D and gain G, the idler grows like G sinh(gamma z)/gamma with gamma^2 = G^2 - (D/2)^2, which is a sine when D exceeds 2 G, up to an explicit error of the order of the depletion. Beyond D = 2 G the signal never exceeds D^2/(D^2 - 4 G^2) times its input, at any length and any depletion. The output of an integration that returns satisfies the growth law with the error of the integrator added.", "quantifier": "every guided unpoled problem with positive indices, every triple of bins with matching frequencies, every mismatch, every pump and signal amplitude, every position in the crystal", "why_tests_cant": "No test of the repository detunes the crystal; the threshold between growth and oscillation and the bound at any length need a proof over all mismatches.", "anchors": ["src/pynlo/interactions/ThreeWaveMixing/DFG_integrand.py:244-282", "src/pynlo/interactions/ThreeWaveMixing/DFG_integrand.py:300-449", "src/pynlo/util/ode_solve/dopr853.py"]}
{"id": "C149", "title": "Small changes of the input stay small on every grid", "statement": "Let u be a smooth periodic solution of the nonlinear Schroedinger equation. If the input pulse differs from the samples of u by d, measured by field and slope over the window, every column that propagate returns differs from u by at most K d + C / n^s at every sample, for every power s, once the grid and the number of steps are fine enough. K, C and the size of the admitted d do not depend on the number of points.", "quantifier": "every dispersion polynomial, gain, nonlinear coefficient, smooth periodic solution, power s, every fine even grid, every input within the admitted distance, every stored position", "why_tests_cant": "The constants must hold for all grids at once and all perturbed inputs; runs only show single grids and inputs.", "anchors": ["src/pynlo/interactions/FourWaveMixing/SSFM.py:SSFM.propagate", "src/pynlo/media/fibers/fiber.py:FiberInstance.get_betas"]}
{"id": "C150", "title": "A fundamental soliton keeps its shape", "statement": "SechPulse with duration T0 and peak power |beta2| / (gamma T0^2), sent by propagate through a generated fibre with anomalous dispersion beta2 and nonlinear coefficient gamma, comes out as sqrt(P0) sech(t/T0) exp(i gamma P0 z / 2) at every stored position and every sample. The error is at most K sqrt(T+1) exp(-T/(2 T0)) + C / n^s for a window T, with K independent of the window and the grid; it can be made smaller than any tolerance.", "quantifier": "every beta2 < 0, gamma > 0, T0 > 0, fibre length, wavelength, repetition rate, every large window, every fine even grid, every power s, every large number of steps, every stored position", "why_tests_cant": "A run shows one window, grid and length; that the error vanishes for all parameters as window, grid and steps grow is a statement about limits.", "anchors": ["src/pynlo/light/DerivedPulses.py:28-60", "src/pynlo/interactions/FourWaveMixing/SSFM.py:SSFM.propagate", "src/pynlo/media/fibers/fiber.py:FiberInstance.get_betas"]}
{"id": "C151", "title": "The time window does not matter for localised pulses", "statement": "Let v be a smooth solution of the nonlinear Schroedinger equation (any polynomial dispersion, gain g, Kerr coefficient gamma) on the unbounded time axis that falls off like exp(-mu |t|) together with its derivatives. A pulse that samples v at the start, sent through propagate in a window T, comes out as the samples of v at every stored position, up to K sqrt(T+1) exp(-mu T/2) + C / n^s with K independent of the window, the grid and the power s.", "quantifier": "every dispersion polynomial, gain, nonlinear coefficient, localised solution that has equal values at the two ends of the window at the start, every large window, every fine even grid, every power s, every large number of steps, every stored position", "why_tests_cant": "The periodic window is an artefact of the FFT; that it can be forgotten is a statement about all windows, grids and pulses in the limit.", "anchors": ["src/pynlo/interactions/FourWaveMixing/SSFM.py:SSFM.propagate", "src/pynlo/media/fibers/fiber.py:FiberInstance.get_betas"]}
{"id": "C152", "title": "The second-order soliton breathes", "statement": "SechPulse with duration T0 and four times the fundamental peak power |beta2| / (gamma T0^2), sent by propagate through a generated fibre with anomalous dispersion, follows the closed form of the second-order soliton at every stored position: the peak power is four times that of the input after half a soliton period (pi/2) T0^2 / |beta2| and the shape of the input returns after a whole period. The error vanishes exponentially with the window and faster than any power of the number of points.", "quantifier": "every beta2 < 0, gamma > 0, T0 > 0, fibre length, wavelength, repetition rate, every large window, every fine even grid, every power s, every large number of steps, every stored position", "why_tests_cant": "A run shows one pulse on one grid; the closed form for all parameters and the limit of window, grid and steps are not observable in finitely many runs.", "anchors": ["src/pynlo/light/DerivedPulses.py:28-60", "src/examples/fundamental_SSFM.py:1-80", "src/pynlo/interactions/FourWaveMixing/SSFM.py:SSFM.propagate", "src/pynlo/media/fibers/fiber.py:FiberInstance.get_betas"]}
{"id": "C153", "title": "Dispersion stretches a Gaussian pulse", "statement": "GaussianPulse with full width T0 at half maximum, sent by propagate through a generated fibre with dispersion beta2 and gain g and without nonlinearity, stays Gaussian at every stored position: its width is T0 sqrt(1 + (2.77 beta2 z / T0^2)^2), its peak power falls by the same factor and follows exp(g z), whatever the sign of beta2. The error falls faster than exp(-mu T) for every mu with the window and faster than any power of the number of points.", "quantifier": "every peak power, beta2, gain, T0 > 0, fibre length, wavelength, repetition rate, every rate mu, every large window, every fine even grid, every power s, every large number of steps, every stored position", "why_tests_cant": "The closed form holds for all parameters and in the limit of window and grid; runs only sample it.", "anchors": ["src/pynlo/light/DerivedPulses.py:62-91", "src/pynlo/interactions/FourWaveMixing/SSFM.py:SSFM.propagate", "src/pynlo/media/fibers/fiber.py:FiberInstance.get_betas"]}
{"id": "C154", "title": "Returned arrays keep the precision of the computation", "statement": "The arrays AW and AT returned by propagate are complex128 arrays, as documented: every column holds the computed field, and the last column of AT equals pulse_out.AT.", "quantifier": "every solver, pulse on an even grid, fibre and number of steps for which propagate returns; every column and entry", "why_tests_cant": "Tests compare with tolerances or with values that single precision can hold; that the loss is bounded for every entry, and where it becomes total, needs the rounding rule for all numbers.", "anchors": ["src/pynlo/interactions/FourWaveMixing/SSFM.py:492-500", "src/pynlo/interactions/FourWaveMixing/SSFM.py:514-515", "src/pynlo/interactions/FourWaveMixing/SSFM.py:533-534"]}
{"id": "C155", "title": "The computed coherence is a number close to the exact one", "statement": "Wherever the spectra of all trials are non-zero, calculate_coherence returns a number, equal to the exact coherence of the computed fields up to rounding errors.", "quantifier": "every number of trials up to 1024, every pulse, fibre, noise, draws, bin and position; every order in which the terms are summed", "why_tests_cant": "The rounding errors depend on all fields and the order of summation; underflow needs faint bins that a test with bright pulses never produces.", "anchors": ["src/pynlo/interactions/FourWaveMixing/SSFM.py:546-608", "src/pynlo/interactions/FourWaveMixing/SSFM.py:514-515"]}
{"id": "C156", "title": "Only the product of nonlinear coefficient and power matters", "statement": "Without self-steepening, a pulse c times as strong in a fibre whose nonlinear coefficient is smaller by |c|^2 behaves as the original pulse: every step of either method gives c times the field, and with the split-step method a whole call of propagate gives c times every column with the same steps.", "quantifier": "every non-zero complex c, every field, fibre, response, tolerance, number of steps; every generated fibre without Raman scattering", "why_tests_cant": "A test compares two runs; that the adaptive step sequence is the same for every factor needs the error estimate to be homogeneous, which fails for a vanishing trial field, so that field must be excluded for all inputs.", "anchors": ["src/pynlo/interactions/FourWaveMixing/SSFM.py:305-377", "src/pynlo/interactions/FourWaveMixing/SSFM.py:404-455", "src/pynlo/interactions/FourWaveMixing/SSFM.py:456-544"]}
{"id": "C157", "title": "Time reversal, and symmetric pulses stay symmetric", "statement": "Without Raman scattering and self-steepening, propagating the time-reversed pulse with the reversed spectrum of propagation constants gives the time-reversed columns and reversed spectra, with the same steps. A symmetric pulse in a fibre with even-order dispersion coefficients at the centre of the pulse stays symmetric in time and frequency in every column.", "quantifier": "every pulse on an even grid, every fibre with gain or loss, either method, every tolerance and number of steps; every generated fibre with even orders (units other than ps^n/km)", "why_tests_cant": "Symmetry of one computed run says nothing about others; an index off by one in a shift or in the frequency grid breaks it for special inputs only.", "anchors": ["src/pynlo/interactions/FourWaveMixing/SSFM.py:305-377", "src/pynlo/interactions/FourWaveMixing/SSFM.py:404-455", "src/pynlo/interactions/FourWaveMixing/SSFM.py:456-544", "src/pynlo/media/fibers/fiber.py:get_betas"]}
{"id": "C158", "title": "Backward integration is conjugate forward integration", "statement": "With the default method, without gain and self-steepening: integrating the complex conjugate of a field against the direction gives the conjugate of integrating the field along it, for an even propagation constant and a real response; and without a delayed response, for any dispersion, the same holds for the conjugated time-reversed field. The steps taken are the same.", "quantifier": "every field, length, direction, tolerance and dispersion on every grid", "why_tests_cant": "It relates two adaptive runs of unbounded length for all fields.", "anchors": ["src/pynlo/interactions/FourWaveMixing/SSFM.py:305-377", "src/pynlo/interactions/FourWaveMixing/SSFM.py:404-455"]}
{"id": "C159", "title": "The split-step method converges to the solution of the propagation equation", "statement": "With METHOD_SSFM and self-steepening off, on an even grid and without reloading: as n_steps grows, the columns of AT converge to the solution of the propagation equation with the betas, gain, gamma and Raman response the fibre and the solver supply.", "quantifier": "every even grid, nonzero field, fibre of positive length, gain, Raman model, positive dz, dz_min and local_error, extrapolation order positive and not 1", "why_tests_cant": "The method does converge as steps shrink, so a refinement test passes; only a comparison with the limit, which no run computes, shows that it solves a different equation.", "anchors": ["src/pynlo/interactions/FourWaveMixing/SSFM.py:379-388", "src/pynlo/interactions/FourWaveMixing/SSFM.py:305-377", "src/pynlo/interactions/FourWaveMixing/SSFM.py:404-455", "src/pynlo/interactions/FourWaveMixing/SSFM.py:456-544"]}
{"id": "C160", "title": "The accuracy of a propagation is set by the steps it takes, whatever the tolerance", "statement": "With the default method and without self-steepening there are a step length h1 and a constant C that depend only on the equation and the input pulse, such that every propagate call (any local_error, any initial and minimal step, any number of segments, any fibre giving that equation) returns columns within C·h^5 of the exact solution, where h <= h1 is the longest step it accepted, evaluated at the distance its accepted steps cover (h^4 for other extrapolation orders). The accepted steps cover every segment at least; if every segment is covered exactly, the error is at most C/n_steps^5 at any tolerance.", "quantifier": "all pulses with an even number of points, all fibres with constant gain and real response, all tolerances, initial steps, minimal steps and numbers of segments, every solution of the equation on an interval containing the fibre", "why_tests_cant": "Quantifies over all step sequences the adaptive controller can produce and compares them with the exact solution of a nonlinear equation; a test sees a few step sequences and no exact solution.", "anchors": ["src/pynlo/interactions/FourWaveMixing/SSFM.py:305-377", "src/pynlo/interactions/FourWaveMixing/SSFM.py:456-544", "src/pynlo/interactions/FourWaveMixing/SSFM.py:379-454"]}
{"id": "C161", "title": "Weak sidebands of a continuous wave grow, mix or stay as the theory of modulation instability says", "statement": "A pulse made of a continuous wave of power P = a^2 and of two weak sidebands (amplitude proportional to eps) at equal distances on either side, sent through a fibre with dispersion beta2 and nonlinearity gamma without Raman scattering, self-steepening and gain: for all large numbers of steps the spectral amplitudes of the sidebands in every column that propagate returns are, up to a constant times eps^2, those of the linear theory. With sigma = beta2*Omega^2/2 and G^2 = -sigma*(sigma + 2*gamma*P): where G^2 > 0 the right pair of sidebands grows as exp(G*z), the rate is at most |gamma|*P and reaches it just at sigma = -gamma*P; with one sideband at the input its power gains 1 + (gamma*P*sinh(G*z)/G)^2 and the other appears with (gamma*P*sinh(G*z)/G)^2; where G^2 < 0, in particular where beta2 and gamma have the same sign, the sidebands stay within a bound that does not depend on the length.", "quantifier": "all even grids, all bins, all windows, dispersions, nonlinearities, powers, lengths, complex amplitudes of the two sidebands, all sufficiently small eps with an explicit constant, all columns, all sufficiently large numbers of steps; the general form holds for every dispersion the fibre loads", "why_tests_cant": "The rate of growth is a limit of small amplitude and many steps over a continuum of parameters; a test measures the gain of one sideband at one frequency with a tolerance that hides the quadratic remainder.", "anchors": ["src/pynlo/interactions/FourWaveMixing/SSFM.py:456-544", "src/pynlo/interactions/FourWaveMixing/SSFM.py:379-454", "src/pynlo/media/fibers/fiber.py:214-292", "src/pynlo/light/PulseBase.py:218-228"]}
{"id": "C162", "title": "The Hamiltonian is conserved by a propagation, and in normal dispersion the spectrum stays bounded over any length", "statement": "Without Raman scattering, self-steepening and gain the equation on the grid conserves H = sum_k beta_k*|A_k|^2 + gamma/2 * mean(|A|^4), and all columns that propagate returns have the H of the input up to a constant over the fifth power of the number of steps. For a fibre with second-order dispersion beta2 the second moment S of the spectrum about its centre and the mean square Q of the power change together: S(z) - S(0) = (gamma/beta2)*(Q(0) - Q(z)). Where gamma/beta2 > 0 every column of every fibre, however long, has S <= S(0) + (gamma/beta2)*(Q(0) - P^2) with P the mean power, up to any tolerance for enough steps.", "quantifier": "all even grids, all non-zero fields, all dispersions (H) or all beta2, gamma, windows and lengths (S), all columns, all sufficiently large numbers of steps", "why_tests_cant": "A conservation law over all fields and dispersions, and a bound uniform in the length of the fibre; a test sees one run of one length.", "anchors": ["src/pynlo/interactions/FourWaveMixing/SSFM.py:456-544", "src/pynlo/interactions/FourWaveMixing/SSFM.py:379-454", "src/pynlo/media/fibers/fiber.py:214-292", "src/pynlo/light/PulseBase.py:218-228"]}
{"id": "C163", "title": "No collapse: in anomalous dispersion peak power and spectral width stay bounded whatever the length and the number of points", "statement": "For a fibre with gamma/beta2 < 0, without Raman scattering, self-steepening and gain, let a = |gamma/beta2|, T the window, P the mean power and S the second moment of the spectrum of the input. Then every column that propagate returns has a second moment of at most W = 2*S + 4*a*P^2 + a^2*P^3*T^2 and a power of at most 2*P + T*sqrt(P*W) at every point, up to any tolerance for enough steps. The bounds contain neither the length of the fibre nor the number of points of the grid.", "quantifier": "all even grids, all non-zero fields, all beta2 and gamma of opposite signs, windows and lengths, all points of all columns, all sufficiently large numbers of steps", "why_tests_cant": "A bound uniform over all fields, all lengths and all grids; refining the grid or lengthening the fibre in a test can only sample it.", "anchors": ["src/pynlo/interactions/FourWaveMixing/SSFM.py:456-544", "src/pynlo/interactions/FourWaveMixing/SSFM.py:379-454", "src/pynlo/media/fibers/fiber.py:214-292", "src/pynlo/light/PulseBase.py:218-228"]}
{"id": "C164", "title": "Errors made in the steps of a propagation add up and are not amplified, in single precision too", "statement": "Let every accepted step of integrate_over_dz be off by at most u and the initial field by e0, from rounding or any other cause, and let the local error estimates that drive the step control be anything, NaN included. After k accepted steps of at most hm that cover the distance z, over any number of segments, the field is the solution of the equation at z up to C*(hm^q + e0 + k*u), as long as C*(e0 + k*u) <= 1, with q = 5 for METHOD RK4IP and eta = 5 and q = 4 for other eta. C depends on the equation and the pulse only, not on tolerance, steps, segments or their number. If the result of every Advance and of the extrapolation is rounded to binary32, the same holds with e0 + k*u replaced by (k + 1)/2^24.", "quantifier": "all grids, all equations without self-steepening, all solutions, all sequences of errors and error estimates, all step sequences the control can produce", "why_tests_cant": "A statement about every possible sequence of rounding errors and every number of steps.", "anchors": ["src/pynlo/interactions/FourWaveMixing/SSFM.py:305-377", "src/pynlo/interactions/FourWaveMixing/SSFM.py:379-454"]}
{"id": "C165", "title": "The spectrum of a propagation does not depend on the centre frequency chosen for the grid", "statement": "The columns of AW returned by propagate are the Fourier coefficients of the solution of the nonlinear Schroedinger equation (error below C/NPTS^s for every s without Raman response, of order 1/NPTS with it). Consequently, if the same input field is put on two grids with the same time window whose centre frequencies differ by a whole number of bins (NPTS may differ too), and both are sent through the same fibre made by generate_fiber, then at every stored position and at every optical frequency present on both grids the moduli of the two spectra agree up to those errors. The two stored fields are the same pulse seen from frames that drift apart: a phase and a delay that grow linearly with the distance, given explicitly by the dispersion of the fibre.", "quantifier": "all fibres with Taylor dispersion of any order, gain and nonlinear coefficient; all smooth periodic solutions; all shifts of the centre by whole bins; all even NPTS on both grids above a bound; all sufficiently large numbers of steps; all stored columns and bins; self-steepening off", "why_tests_cant": "A test compares two runs on two grids for one pulse; the claim is a limit statement for all pulses, all dispersion orders and all shifts, with an error bound of every order.", "anchors": ["src/pynlo/interactions/FourWaveMixing/SSFM.py:456-544", "src/pynlo/media/fibers/fiber.py:214-292", "src/pynlo/light/PulseBase.py:218-228"]}
{"id": "C166", "title": "With self-steepening the photon number is conserved as long as the band has room", "statement": "With self-steepening switched on (the default), RK4IP steps and a lossless fibre, the photon number sum |AW|^2 / W_THz of the spectra returned by propagate stays that of the input (with gain g: times exp(g z)). The deviation is bounded explicitly by the distance times a rate that is proportional to the light outside the central third of the band, plus the effect of the 1e-20 in the steepening term, plus a constant over n_steps^5. For the equation itself light that stays inside the central third keeps its photon number exactly. With light outside the central third the photon number does change: on a two-point grid there is a pulse whose photon number after propagation differs from that of the input however many steps are taken.", "quantifier": "all pulses on even grids with positive optical frequencies, all fibres with constant gain and any dispersion, with and without Raman response; all solutions with no sample at the 1e-15 threshold; all sufficiently large numbers of steps; all stored columns", "why_tests_cant": "A test sees a small drift of the photon number in one run and cannot tell integration error from aliasing. The claim bounds the drift for all pulses by a quantity that can be read off the spectrum, and shows that the bound cannot be replaced by zero.", "anchors": ["src/pynlo/interactions/FourWaveMixing/SSFM.py:404-433", "src/pynlo/interactions/FourWaveMixing/SSFM.py:456-544"]}
{"id": "C167", "title": "With Raman response every smooth pulse has a field that propagate converges to, for every fibre and every length", "statement": "Take any smooth periodic pulse shape, any generated fibre (dispersion of any order, any nonlinearity, any gain, any length), and the Raman response of the solver. The nonlinear Schrodinger equation has exactly one smooth solution that starts as the pulse, and the fields returned by propagate (RK4IP, self-steepening off) approach it: the root mean square error of every stored field is at most C/NPTS once there are enough steps. Nothing about the solution has to be assumed.", "quantifier": "all smooth periodic pulses, all polynomial propagation constants, all gains, nonlinearities and lengths, both Raman models with positive times, all sufficiently fine even grids, all sufficiently large numbers of steps, all stored fields", "why_tests_cant": "A test can compare two grids for one pulse. Whether refinement has a limit at all for every pulse and every length, and which limit, is a statement about an infinite-dimensional equation.", "anchors": ["src/pynlo/interactions/FourWaveMixing/SSFM.py:305-377", "src/pynlo/interactions/FourWaveMixing/SSFM.py:404-433", "src/pynlo/interactions/FourWaveMixing/SSFM.py:456-544", "src/pynlo/media/fibers/fiber.py:214-292"]}
{"id": "C168", "title": "Without Raman response the result of propagate has a limit under grid refinement for every smooth pulse, every fibre and every length", "statement": "Take any generated fibre (dispersion of any order, any nonlinearity, any gain, any length) and any smooth periodic pulse shape. With Raman response and self-steepening off, the fields returned by propagate approach the only smooth solution of the nonlinear Schrodinger equation, faster than every power of 1/NPTS. In particular results on two grids agree at common times up to C/n^s + C/n'^s for every s.", "quantifier": "all smooth periodic pulses, all generated fibres, all gains, nonlinearities and lengths, all orders s, all sufficiently fine even grids, all sufficiently large numbers of steps, all stored fields", "why_tests_cant": "That refinement converges for every pulse and over every length needs the global existence of solutions; finitely many runs on finitely many grids cannot show it.", "anchors": ["src/pynlo/interactions/FourWaveMixing/SSFM.py:305-377", "src/pynlo/interactions/FourWaveMixing/SSFM.py:404-433", "src/pynlo/interactions/FourWaveMixing/SSFM.py:456-544", "src/pynlo/media/fibers/fiber.py:214-292"]}
{"id": "C169", "title": "For every smooth pulse and every fibre: centroid kept, red shift, independence of the centre frequency and stability against noise hold in the limit of fine grids", "statement": "Take any smooth periodic pulse shape with f(0) not zero and any generated fibre. With self-steepening off, on fine even grids and with enough steps: (a) without Raman response the centroid that calculate_weighted_avg_frequency_mks reports changes by at most C/NPTS; (b) with the Raman response of the solver and gamma >= 0 it rises by no more than the bound for the part of the memory that does not fit into half the window, plus C/NPTS; (c) the spectra computed about cf and about cf + k/T agree at common optical frequencies up to K/n^s + K/n'^s (K/n + K/n' with Raman response); (d) there are constants, the same for all grids, such that an input that deviates from the samples by a small d gives stored fields that deviate by at most K d + C/n^s.", "quantifier": "all smooth periodic pulses, all generated fibres, all gains, nonlinearities and lengths, all shifts k, all orders s, all disturbances below a threshold, all sufficiently fine even grids, all sufficiently large numbers of steps", "why_tests_cant": "The constants have to be the same for all grids and every disturbance; a test sees one grid and one disturbance. The theorems about solutions of the equation are only useful if the solution is known to exist, which no run can show.", "anchors": ["src/pynlo/interactions/FourWaveMixing/SSFM.py:305-377", "src/pynlo/interactions/FourWaveMixing/SSFM.py:404-433", "src/pynlo/interactions/FourWaveMixing/SSFM.py:456-544", "src/pynlo/media/fibers/fiber.py:214-292", "src/pynlo/light/PulseBase.py:218-228"]}
{"id": "C170", "title": "The step control of propagate returns in double precision, up to a length that is known", "statement": "Run with lengths rounded to IEEE double precision, the adaptive step control of the split-step solver returns for every sequence of error estimates (infinite and NaN included) as long as the segment is shorter than 2^54 times the minimum step (with the default minimum step of 1e-12 m: every segment up to 16 km). No length computed on the way exceeds four times the segment, so nothing overflows. The accepted steps cover the segment up to one part in 2^52 per step; if the distance left is never positive but at most twice the minimum step, they do not cover more than that either and the distance left ends at exactly zero. All this stays true after any history of calls, since the stored step never falls below the smaller one of its first value and the minimum step. The limit is a real one: from 2^57 times the minimum step on (144 km by default), if the error estimates stay above twice the tolerance, the call never returns, because subtracting a step no longer changes the distance left.", "quantifier": "all segment lengths and stored steps that are doubles, all settings with a growth factor in (1, 2], all infinite sequences of error estimates, all histories of calls", "why_tests_cant": "Termination over all error sequences is unbounded, and whether rounding can stop the loop from making progress shows only in sequences of more than 10^16 steps.", "anchors": ["src/pynlo/interactions/FourWaveMixing/SSFM.py:305-377"]}
{"id": "C171", "title": "Poling domains in double precision", "statement": "Computed in IEEE double precision, precompute_poling returns for every period function whose values stay above p0 in the crystal, for crystals of up to 2^51 times p0, and yields at most 2*length/p0 + 1 domains. With a constant period the sign returned by poling is the exact one at every position that is farther from the domain walls than the accumulated rounding error, one part in 2^53 of the crystal length per period (about 1e-13 m in a crystal of some centimetres). The limit is a real one: with more than 2^55 periods the loop never ends, because adding a period no longer changes the position.", "quantifier": "all period functions with double values bounded below, all constant double periods, all crystal lengths, all positions in the crystal", "why_tests_cant": "Rounding accumulates over thousands of periods; a test sees one period and one length, not whether the walls drift or the loop ends for all of them.", "anchors": ["src/pynlo/interactions/ThreeWaveMixing/DFG_integrand.py:244-282"]}
{"id": "C172", "title": "Widths of the analytic pulses", "statement": "The width parameters mean what the documentation says: the full width at half maximum (FWHM) of the power is 1.76*T0_ps for SechPulse, T0_ps for GaussianPulse and FWHM_ps for SincPulse. The power is at least half of its maximum exactly between the two half-maximum points.", "quantifier": "every positive power and width, every window, every NPTS, every time-domain chirp, peak and average power", "why_tests_cant": "The repository tests one sech pulse to within two samples; the claim is about every width and every sample.", "anchors": ["src/pynlo/light/DerivedPulses.py:29-60", "src/pynlo/light/DerivedPulses.py:62-91", "src/pynlo/light/DerivedPulses.py:93-121"]}
{"id": "C173", "title": "End point and saved positions of the integrator in double precision", "statement": "In double-precision arithmetic ODEint.integrate ends exactly at x2, never goes back, leaves the final value in the caller's array, and with dense output saves one row more than the number of requested intervals, at x1, x1+dx, ..., up to rounding.", "quantifier": "every problem, every interval of non-negative floating-point numbers, every first step, every number of rows", "why_tests_cant": "Whether the sums of rounded steps and spacings hit the end point depends on the last bits of the interval; a test samples a few intervals.", "anchors": ["src/pynlo/util/ode_solve/steppers.py:48-119", "src/pynlo/util/ode_solve/steppers.py:208-238", "src/pynlo/util/ode_solve/dopr853.py:57-77"]}
{"id": "C174", "title": "A fibre without nonlinearity is a chirp", "statement": "With gamma = 0 and dispersion [beta2, beta3, beta4] from generate_fiber, SSFM.propagate turns the pulse into what chirp_pulse_W(beta2*L, beta3*L, beta4*L) makes of it (with the coefficients re-expanded at the centre of the pulse), followed by add_time_offset of beta3*L/6*(2*pi/T)^2 from the numerical slope in get_betas; for beta3 = 0 the spectra are equal, chirp_pulse_W with the opposite coefficients restores the pulse, and a second fibre with opposite total dispersion restores it for all three orders. A pulse stretched by chirp_pulse_W(GDD, 0, FOD) is restored by a fibre with beta2*L = -GDD and beta4*L = -FOD.", "quantifier": "every pulse on an even grid of at least four points, every centre wavelength of pulse and fibre, every dispersion, length and number of steps", "why_tests_cant": "The statement relates two parts of the library for all fields, grids and coefficients; the extra delay is far below the tolerances of a numerical comparison on a wide window.", "anchors": ["src/pynlo/media/fibers/fiber.py:get_betas", "src/pynlo/light/PulseBase.py:679-716", "src/pynlo/light/PulseBase.py:739-743", "src/pynlo/interactions/FourWaveMixing/SSFM.py:propagate"]}
{"id": "C175", "title": "Parametric gain of a periodically poled crystal", "statement": "For a dfg_problem in waveguide mode with a crystal of mode PP and constant poling period P that holds the phase of the mismatch n times (mismatch*P = 2*pi*n, n a nonzero integer), with a pump line and a signal line at the entrance and no idler: signal and idler follow |s0|*cosh(mu*G*z) and sqrt(W_i/W_s)*|s0|*sinh(mu*G*z) where G is the gain of the phase-matched crystal and mu = 2/(pi*|n|) for odd n, 0 for even n, up to an explicit error that goes to zero with the gain within one period, P*G, and the ratio of signal photons to pump photons. Whatever the depletion, the signal never exceeds |s0|*exp((mu + P*G*(1+r))/(1-P*G)*G*z)/(1-P*G). The same holds for what ODEint.integrate returns, up to its error.", "quantifier": "every grid size, three frequencies that add up, crystal length, poling period, order n of the quasi-phase matching, pump and signal amplitude with P*G < 1, position in the crystal, step sequence", "why_tests_cant": "The statement is about the growth over all lengths, periods and orders; a test sees single crystals, in which the rapid change within the periods hides the mean.", "anchors": ["src/pynlo/interactions/ThreeWaveMixing/DFG_integrand.py:dfg_problem.deriv", "src/pynlo/interactions/ThreeWaveMixing/DFG_integrand.py:dfg_problem.poling", "src/pynlo/interactions/ThreeWaveMixing/DFG_integrand.py:dfg_problem.precompute_poling", "src/pynlo/util/ode_solve/steppers.py:ODEint.integrate"]}
{"id": "C176", "title": "First-order response of a crystal to pulses", "statement": "For a dfg_problem in waveguide mode (poled or not) and pump, signal and idler fields of any shape: after the length z every frequency of each wave has changed by the sum, over all pairs of frequencies that mix to it, of i*deff*kappa*W times the product of the two input amplitudes (conjugated for a difference frequency) times the contribution of the crystal for the mismatch of that pair (integral of the domain sign times exp(i*mismatch*z), given by C144 and C145), up to sqrt(3N)*(kappa*z)^2*R^3/2, with kappa the bound of the coupling and R^2 the total input power. In an unpoled crystal thin against all mismatches (|mismatch| <= delta) the idler is i*z*deff*W times the product of the pump and the conjugate of the signal, up to a further kappa*delta*z^2/2 times the product of their root powers. The first statement also holds for what ODEint.integrate returns, up to its error.", "quantifier": "every grid size, all complex input fields, crystal length, position, coupling, poling, step sequence", "why_tests_cant": "The statement sums over all pairs of frequencies of arbitrary pulses and bounds everything of higher order; a test sees single pulses and has no exact reference for them.", "anchors": ["src/pynlo/interactions/ThreeWaveMixing/DFG_integrand.py:dfg_problem.deriv", "src/pynlo/interactions/ThreeWaveMixing/DFG_integrand.py:dfg_problem.poling", "src/pynlo/util/ode_solve/steppers.py:ODEint.integrate"]}
{"id": "C177", "title": "Four-wave mixing to first order", "statement": "For SSFM.propagate with method RK4IP, self-steepening off, Raman and gain on or off, an even grid and a pulse of any shape whose nonlinear phase is at most 1/8 (gamma*S^2*L, S the sum of the amplitudes of all frequencies): in every column of AW at position z, summed over all frequencies m, AW(m) is exp((i*beta(m)+g/2)*z) times the input plus the sum over all triples of frequencies j + l = m + s of i*gamma*R(l-s)*A_j*A_l*conj(A_s) times the integral of exp((i*mismatch+g)*z), up to 12*(nonlinear phase)^2*S plus a constant over n_steps^5. For two lines c and q without Raman and gain: the line at 2c-q has the amplitude gamma*z*|sinc(mismatch*z/2)|*|A_c|^2*|A_q|, the line q has its phase turned by gamma*z*(|A_q|^2 + 2*|A_c|^2) (cross-phase modulation is twice self-phase modulation), and frequencies no combination of the lines falls on stay dark. In a generated fibre with second-order dispersion the mismatch is beta2 times the squared distance of the lines.", "quantifier": "every even grid size, all spectra, dispersion, gain, Raman response, length, pair of lines, large n_steps", "why_tests_cant": "The statement sums over all triples of frequencies of arbitrary pulses, dispersion and Raman response and bounds everything of higher order; tests see single pulses and have no exact reference.", "anchors": ["src/pynlo/interactions/FourWaveMixing/SSFM.py:SSFM.propagate", "src/pynlo/interactions/FourWaveMixing/SSFM.py:SSFM.Advance", "src/pynlo/media/fibers/fiber.py:FiberInstance.generate_fiber", "src/pynlo/light/PulseBase.py:Pulse.set_AW"]}
{"id": "C178", "title": "The default Raman response lowers the mean frequency", "statement": "With the Raman response SSFM uses by default (time constants 0.0122 ps and 0.032 ps plus the boson peak, cut at half the time window) and a time window of at least 0.3 ps: at every frequency of the window the sine transform of the response is positive, so along a solution of the propagation equation with any dispersion polynomial and any gain the mean frequency never rises, and it is strictly lower behind every piece of nonlinear fibre unless the power of the input is constant in time. Consequently, for every smooth periodic pulse with non-constant power and every generated fibre with positive gamma, SSFM.propagate with default settings and self-steepening off returns, on every sufficiently fine even grid and with sufficiently many steps, a pulse whose calculate_weighted_avg_frequency_mks is strictly below that of the input; the shift converges with an error of order 1/NPTS to a value that is independent of the grid.", "quantifier": "every smooth periodic pulse, window of 0.3 ps or more, dispersion polynomial, gain, fibre length; all fine even grids, large n_steps", "why_tests_cant": "The sign must hold at every frequency of every window and for every pulse; a test sees single pulses, where a wrong sign at some frequencies (an effect of cutting the response) stays hidden.", "anchors": ["src/pynlo/interactions/FourWaveMixing/SSFM.py:SSFM.CalculateRamanResponseFT", "src/pynlo/interactions/FourWaveMixing/SSFM.py:SSFM.propagate", "src/pynlo/light/PulseBase.py:Pulse.calculate_weighted_avg_frequency_mks", "src/pynlo/media/fibers/fiber.py:FiberInstance.generate_fiber"]}
{"id": "C179", "title": "Stimulated Raman scattering: of two lines the redder one is amplified", "statement": "With SSFM's default Raman response and self-steepening off, for every time window T of at least 0.3 ps and every spacing of m bins (m/T THz) there is a rate kappa > 0 such that, on every sufficiently fine even grid, for every pulse whose AW consists of two lines A (higher frequency) and B (lower frequency) m bins apart, every gamma > 0 and every sufficiently short generated fibre without gain, whatever its dispersion coefficients: in every column of the AW array that propagate returns with sufficiently many steps, the line of lower frequency has at least the amplitude |B|(1 + kappa*gamma*z*|A|^2) and the line of higher frequency at most |A|(1 - kappa*gamma*z*|B|^2), where z is the distance of the column. The rate does not depend on the grid, the amplitudes, the dispersion or where the lines lie.", "quantifier": "every window of 0.3 ps or more, spacing, pair of non-zero complex amplitudes, gamma > 0, dispersion, position of the lines; all fine even grids, short fibres, large n_steps, every column", "why_tests_cant": "The direction of the energy flow must hold at every spacing, grid and dispersion; a sign or shift error in the response array turns it around only for some of them.", "anchors": ["src/pynlo/interactions/FourWaveMixing/SSFM.py:SSFM.CalculateRamanResponseFT", "src/pynlo/interactions/FourWaveMixing/SSFM.py:SSFM.propagate", "src/pynlo/light/PulseBase.py:Pulse.set_AW", "src/pynlo/media/fibers/fiber.py:FiberInstance.generate_fiber"]}
{"id": "C180", "title": "Self-phase modulation broadens the spectrum by the known law", "statement": "For every smooth field of period T, every gamma, gain and fibre length, with the default method and without dispersion, Raman scattering and self-steepening: the mean square of V_THz weighted with the last AW column that propagate returns tends, on fine even grids and for many steps, to (M + 2qX + q^2 Y)/E, where q is gamma times the effective length of the gain, E the energy, M the power-weighted square of the frequency of the input, X the correlation of the slopes of power and phase and Y the power-weighted square of the slope of the power; the error is at most a constant over NPTS. The mean frequency stays that of the input. For an unchirped pulse whose power is not constant the returned spectrum is therefore wider than the input spectrum for both signs of gamma; a pulse whose phase is minus c times its power is narrowed until q = c, where the width of the unchirped pulse is reached; for a Gaussian pulse the factor is 1 + 4 phi^2/(3 sqrt 3) with phi the peak phase.", "quantifier": "every smooth periodic field with f nonzero on the grid, gamma, gain, length, central frequency, even NPTS from some size on and every n_steps from some size on, every solver object with the default method and positive step settings", "why_tests_cant": "The law is a statement about a limit for all pulse shapes; a test compares one shape on one grid with a tolerance and cannot tell a wrong constant or sign of the cross term from the discretisation error.", "anchors": ["src/pynlo/interactions/FourWaveMixing/SSFM.py:SSFM.propagate", "src/pynlo/interactions/FourWaveMixing/SSFM.py:SSFM.NonlinearOperator", "src/pynlo/light/PulseBase.py:Pulse.V_THz", "src/pynlo/media/fibers/fiber.py:FiberInstance.generate_fiber"]}
{"id": "C181", "title": "Self-steepening moves the power to the trailing edge at the known rate", "statement": "For every smooth field f of period T that stays above the threshold 1e-15, every dispersion polynomial, gain and gamma, with the default method, self-steepening on and Raman scattering off: on an even grid, in every short enough fibre and with enough steps, every sample of every AT column that propagate returns has the power P + z*(g*P + 2 Re(conj(f) D f) - 3 (gamma/w0) P dP/dt), with P = |f|^2, D the dispersion operator, w0 the centre angular frequency and z the distance of the column; the rate is met to C/NPTS plus 1e-19*|gamma/w0|*max|f|^2*max|f'|, which is the effect of the constant 1e-20 in the code. Without gain, and with no dispersion or with an unchirped field and second-order dispersion, samples on the leading edge (P rising with time) have therefore lost power and samples on the trailing edge have gained some in every column.", "quantifier": "every smooth periodic field above the threshold, dispersion polynomial, gain, gamma, centre frequency, even NPTS, fibre shorter than a length that may depend on the pulse, every n_steps from some size on, every solver object with the default method and positive step settings", "why_tests_cant": "A rate for all pulse shapes and dispersions, separated from the discretisation error; a test with one pulse cannot tell the factor 3 or the edge from the effects of dispersion, grid and step size.", "anchors": ["src/pynlo/interactions/FourWaveMixing/SSFM.py:SSFM.propagate", "src/pynlo/interactions/FourWaveMixing/SSFM.py:SSFM.NonlinearOperator", "src/pynlo/interactions/FourWaveMixing/SSFM.py:SSFM.Deriv", "src/pynlo/media/fibers/fiber.py:FiberInstance.generate_fiber"]}
{"id": "C182", "title": "Dispersion moves the power with the slope of the phase", "statement": "For every smooth field f of period T, dispersion polynomial, gain g and gamma, with the default method, self-steepening off and Raman scattering on or off: on an even grid, near the input and with enough steps, every sample of every AT column that propagate returns has the power P + z*(g*P + 2 Re(conj(f) D f)), with P = |f|^2, D the dispersion operator and z the distance of the column, to z*C/NPTS; neither gamma nor the Raman response changes the power to first order, and C does not depend on them. For dispersion up to third order the rate is g*P + dJ/dt with the flow J = -beta1 P + beta2 Im(conj(f) f') + beta3/6 (2 Re(conj(f) f'') - |f'|^2), so the power is moved and not created. With second order only and f = x e^{i phi} the flow is beta2 x^2 phi'; without gain, samples where beta2 (x^2 phi')' is positive have gained power and samples where it is negative have lost some in every column near the input. At a peak the sign of beta2 phi'' decides between compression and spreading.", "quantifier": "every smooth periodic field, dispersion polynomial, gain, gamma, Raman response of the solver, even NPTS (from some size on for the sign), fibre length, every n_steps from some size on, every solver object with the default method and positive step settings", "why_tests_cant": "A rate for all pulse shapes, chirps and nonlinear coefficients, separated from the discretisation error; a test with one pulse sees dispersion and nonlinearity together.", "anchors": ["src/pynlo/interactions/FourWaveMixing/SSFM.py:SSFM.propagate", "src/pynlo/interactions/FourWaveMixing/SSFM.py:SSFM.NonlinearOperator", "src/pynlo/interactions/FourWaveMixing/SSFM.py:SSFM.RK4IP", "src/pynlo/media/fibers/fiber.py:FiberInstance.get_betas"]}
{"id": "C183", "title": "Frequency conversion by a strong signal", "statement": "A weak pump and a strong signal, each in one frequency bin, enter an unpoled waveguide crystal without idler. The share of the pump photons that has become idler photons after the length z is (g/W)^2 sin^2(W z) with W^2 = g^2 + (D/2)^2, where D is the phase mismatch and g the coupling of the signal; the amplitude is met with a relative error of (g z)^2/4 times the ratio of pump to signal photons, with no exponential factor. With the wave vectors matched and g z = pi/2 all of the pump but a share pi^2/8 of that ratio is converted; with a mismatch never more than the share (g/W)^2 (plus the error). At any mismatch, poling and strength the idler never has more photons than the pump had, and the pump keeps the rest. The output of an integration that returns satisfies the law with the error of the integrator added.", "quantifier": "every guided unpoled problem with positive indices, every triple of bins with matching frequencies, every mismatch, every pump and signal amplitude, every position in the crystal", "why_tests_cant": "The repository's test uses one case with a strong pump; the oscillation between pump and idler and the bounds hold for every mismatch, length and ratio of powers.", "anchors": ["src/pynlo/interactions/ThreeWaveMixing/DFG_integrand.py:244-282", "src/pynlo/interactions/ThreeWaveMixing/DFG_integrand.py:300-449", "src/pynlo/util/ode_solve/dopr853.py"]}
{"id": "C184", "title": "A detuned pulse travels at its own group velocity and keeps its shape", "statement": "In a generated fibre with second-order dispersion beta2 at the pulse's centre frequency, propagate two inputs that differ only by the factor exp(i Omega t), with Omega a multiple of the grid's frequency spacing. Without self-steepening there is one field u such that the first run stores samples of u(z, t) and the second samples of u(z, t + beta2 Omega z) times a phase factor, up to an error that vanishes with the grid: faster than every power of the number of samples without Raman response, and in the mean square like its inverse with the default Raman response. So where the delay is a whole number of samples, the moduli stored by the two runs agree sample by sample around the window.", "quantifier": "every smooth periodic input that is not zero at t = 0, every beta2, nonlinearity, gain and length, every integer number of frequency bins of detuning, every fine enough even grid with enough steps, every stored column", "why_tests_cant": "A test compares two runs at one detuning and one pulse; the statement ties two nonlinear propagations together for every pulse shape and detuning and needs the existence, uniqueness and convergence of the field.", "anchors": ["src/pynlo/interactions/FourWaveMixing/SSFM.py:73-84", "src/pynlo/interactions/FourWaveMixing/SSFM.py:305-454", "src/pynlo/interactions/FourWaveMixing/SSFM.py:456-544", "src/pynlo/media/fibers/fiber.py"]}
{"id": "C185", "title": "A larger local error does not lead to a larger step", "statement": "After a segment that integrate_over_dz does in one step of size h, with an error within twice local_error, the stored step is h times 2^(1/eta) for an error below half of local_error, h for an error from there up to local_error, and h divided by 2^(1/eta) for an error from local_error to twice local_error, both ends included, unless that is below the minimum step. The step stored before the segment does not matter. So of two such segments of the same length the one with the larger error never leaves the larger step; and inside a long segment, away from the minimum step, the step tried next is not larger for the larger error, rejected steps included. The same holds in double precision, where the thresholds and the half of the segment are exact and only the new step is rounded.", "quantifier": "every positive tolerance, minimum step and growth factor above one, every segment of at most twice the stored step, every error, exact arithmetic and doubles", "why_tests_cant": "The outcome is a piecewise function of a real error with boundaries that a run practically never meets exactly; the comparison is between all pairs of errors.", "anchors": ["src/pynlo/interactions/FourWaveMixing/SSFM.py:305-377"]}
{"id": "C186", "title": "Similar problems have the same solution: only ratios of times and of lengths matter", "statement": "Take any call of SSFM.propagate without Raman response or with USE_SIMPLE_RAMAN. Make the time window, the optical period of pulse and fibre and the two Raman time constants tau_1 and tau_2 a times as long and the fibre l times as long, multiply the dispersion coefficient of order m by a^m/l, divide gamma and the gain by l, and multiply the solver's step and minimum step by l. Then the same input samples give exactly the same AT and AW arrays, the positions z and the stored step are l times as large, and the number of accepted steps is the same.", "quantifier": "every positive a and l, every input on an even grid of four or more points, dispersion coefficients, gamma, gain, length, tolerance, number of steps, either method, with or without self-steepening, Raman response off or simple with nonzero time constants", "why_tests_cant": "It is an identity between two whole adaptive integrations for all inputs and scale factors; a unit error that only enters through the optical frequency, the slope subtracted from the dispersion or the step control shows up for some settings only.", "anchors": ["src/pynlo/interactions/FourWaveMixing/SSFM.py:243-296", "src/pynlo/interactions/FourWaveMixing/SSFM.py:73-84", "src/pynlo/interactions/FourWaveMixing/SSFM.py:305-454", "src/pynlo/interactions/FourWaveMixing/SSFM.py:456-544", "src/pynlo/media/fibers/fiber.py"]}
{"id": "C187", "title": "Units, phases and direction do not matter for the integrator", "statement": "Take any integration by ODEint with StepperDopr853, and write the same equation with the variable multiplied by l (negative l: the other direction) and component i of the unknown multiplied by a number a_i, all a_i of one modulus c, or with all components conjugated. With the absolute tolerance multiplied by c and the first and smallest step by |l|, the new integration ends in the same way (returns, raises the same exception, or does not end); it accepts and rejects the same steps, nok and nbad are equal, the visited and saved positions are l times the old ones, and all saved rows and the final value are the old ones in the new units.", "quantifier": "every right-hand side, initial value, interval, tolerances, first step, number of saved rows, dense or not, every l other than zero and every a_i of equal nonzero modulus", "why_tests_cant": "It is an identity between two whole adaptive integrations, for all equations and all scale factors; a constant with hidden units in the step control or in the dense output only shows for some scales.", "anchors": ["src/pynlo/util/ode_solve/steppers.py:48-119", "src/pynlo/util/ode_solve/steppers.py:172-238", "src/pynlo/util/ode_solve/dopr853.py:57-175", "src/pynlo/util/ode_solve/dopr853_controller.py:37-70"]}
{"id": "C188", "title": "Transforms of two-dimensional arrays", "statement": "FFT_t(A, ax) and IFFT_t(A, ax) of an array of shape (n, m) transform every line along the axis ax by the centred sum of that length and nothing else; they undo each other, the order of the axes does not matter, and the summed squares differ by the length of the axis. FFT_x and IFFT_x have the directions exchanged: FFT_x is IFFT_t and IFFT_x is FFT_t. Of a two-dimensional array they transform the last axis, with the shifts of the first axis cancelling, while FFT_t and IFFT_t take the first axis by default, so that the results differ.", "quantifier": "every shape and every complex array (the centred sum for even lengths)", "why_tests_cant": "Holds for all shapes, including odd ones, and all arrays; shifts applied to the wrong axis cancel in round-trip tests.", "anchors": ["src/pynlo/util/pynlo_ffts.py:26-35"]}
{"id": "C189", "title": "Group velocities from a sampled index", "statement": "vg(n, wl) of a DFG problem, for index samples at distinct neighbouring wavelengths in increasing or decreasing order, gives c/(n - λ dn/dλ) to within 2·c·λ·M·h/g² at every sample, the last one included, where M bounds the change of the slope per wavelength, h the spacing and g is below the group index; it is exact for an index linear in the wavelength, and for a + bλ + qλ² it is c/(a - qλλ') with λ' the next wavelength, the one before for the last sample. One sample raises IndexError, arrays of different lengths raise. Angular frequencies in place of wavelengths, which gen_jl is written to pass, give an answer on the wrong side of the phase velocity.", "quantifier": "every number of samples from two, every index with Lipschitz slope, every spacing that resolves the group index", "why_tests_cant": "An error bound over all sampled index functions; one sample point of one crystal cannot tell a repeated last difference from a wrong one.", "anchors": ["src/pynlo/interactions/ThreeWaveMixing/DFG_integrand.py:191-217"]}
{"id": "C190", "title": "A warmer crystal needs a shorter poling period", "statement": "For either set of PPLN data the index rises more with temperature the shorter the wavelength, so calculate_poling_period for the same pump and signal, the same length and the same delta_k_L returns a strictly shorter period for the warmer crystal whenever the period of the cooler one is positive.", "quantifier": "both data sources, all temperatures between 20 and 250 degrees, all pump, signal and idler wavelengths between 600 and 4500 nm, every length and delta_k_L", "why_tests_cant": "A strict order over a continuum of temperatures and wavelength triples, decided by a mixed second difference that is small against the terms it is made of.", "anchors": ["src/pynlo/media/crystals/XTAL_PPLN.py:28-79", "src/pynlo/media/crystals/XTAL_PPLN.py:120-160"]}
{"id": "C191", "title": "Heating a crystal of given period moves signal and idler apart", "statement": "For either set of PPLN data, if calculate_poling_period returns the same period for a signal s at one temperature and for a signal x at a higher one, with the same pump and the same length, then x is shorter than s and the idler of x longer than that of s. invert_dfg_qpm_to_signal_wl on the two crystals returns signals in the same order when its optimiser is exact and the search stays at or below twice the pump wavelength.", "quantifier": "both data sources, all temperatures between 20 and 250 degrees, every pump from 600 nm, every signal from the pump up to twice the pump, idlers up to 1800 nm, every length but zero", "why_tests_cant": "The direction of a tuning curve over a continuum of temperatures, pumps and periods; it rests on the sign of a mixed difference of the index and on the convexity of the wave number.", "anchors": ["src/pynlo/media/crystals/XTAL_PPLN.py:28-79", "src/pynlo/media/crystals/XTAL_PPLN.py:120-160", "src/pynlo/media/crystals/CrystalContainer.py:150-174"]}
