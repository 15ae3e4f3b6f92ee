import Verif.Model.DerivedPulses

/-!
# `Pulse.write_frog` and `CWPulse.gen_OSA`

Both methods use attributes that no class defines.  The model has the name tables of the classes, so that the place at which the methods stop is
computed and not assumed; what would come after it is an arbitrary computation.
-/

namespace PyNLO.Pulse

/-- A pulse object with the names in its own dictionary beyond those of the class, and the files on disk. -/
structure FileWorld where
  pulse : Pulse
  own : List String
  files : List (String × List (List ℝ))

/-- The names that class `Pulse` defines, `PulseBase.py:35-1012` (private ones mangled), and `CWPulse`, `DerivedPulses.py:188-277`. -/
def classNames : List String :=
  ["__init__", "_n", "_centerfrequency", "_time_window", "_V", "_AW", "_frep_MHz", "_ready", "_external_units", "_c_nmps", "_c_mks", "_cache_wl_nm_hash",
    "_cache_wl_nm", "_cache_W_Hz_hash", "_cache_W_Hz", "_not_ready_msg", "load_consts", "_Pulse__get_w0", "_Pulse__get_W", "_Pulse__get_T", "_Pulse__get_dT",
    "_Pulse__get_V", "_w0", "_W", "_dT", "_T", "_get_wavelength_nm", "_get_wavelength_m", "_get_center_wavelength_nm", "_get_center_wavelength_mks",
    "_get_center_frequency_THz", "_get_center_frequency_mks", "_get_NPTS", "_get_hash", "_get_W_Hz", "_get_F_Hz", "_get_W_THz", "_get_F_THz", "_get_dT_seconds",
    "_get_dT_picoseconds", "_get_T_seconds", "_get_T_picoseconds", "_get_time_window_seconds", "_get_time_window_picoseconds", "_get_V_Hz", "_get_V_THz",
    "_get_dF_THz", "_get_dF_Hz", "_get_frep_MHz", "_get_frep_Hz", "_get_AW", "_get_AT", "set_AW", "set_AT", "wl_nm", "W_THz", "F_THz", "dT_ps", "T_ps", "V_THz",
    "time_window_ps", "center_wavelength_nm", "center_frequency_THz", "wl_mks", "W_mks", "F_mks", "dT_mks", "T_mks", "V_mks", "dF_mks", "dF_THz",
    "time_window_mks", "center_wavelength_mks", "center_frequency_mks", "AW", "AT", "NPTS", "frep_MHz", "frep_mks", "cache_hash", "_set_centerfrequency",
    "_set_time_window", "_check_ready", "_ext_units_nmps", "_ext_units_mks", "set_center_wavelength_nm", "set_center_wavelength_m", "set_NPTS", "set_frep_MHz",
    "set_time_window_ps", "set_time_window_s", "set_frequency_window_THz", "set_frequency_window_mks", "calc_epp", "set_epp", "add_noise", "chirp_pulse_W",
    "apply_phase_W", "chirp_pulse_T", "dechirp_pulse", "remove_time_delay", "add_time_offset", "expand_time_window", "rotate_spectrum_to_new_center_wl",
    "interpolate_to_new_center_wl", "filter_by_wavelength_nm", "clone_pulse", "get_pulse_dict", "load_pulse_dict", "create_cloned_pulse", "create_subset_pulse",
    "calculate_weighted_avg_frequency_mks", "calculate_weighted_avg_wavelength_nm", "calculate_intensity_autocorrelation", "write_frog", "spectrogram", "gen_OSA"]

/-- Reading `self.name`: the class and the object's own dictionary are searched. -/
def readAttr (name : String) : PyM FileWorld Unit := fun w =>
  if name ∈ classNames ∨ name ∈ w.own then (.ok (), w) else (.error .AttributeError, w)

/-- Assigning `self.name` for a name outside the modelled state. -/
def setOwn (name : String) : PyM FileWorld Unit := PyM.modify fun w => { w with own := name :: w.own }

/-- `PulseBase.py:878-898` `write_frog`: `fileloc` is stored, then `self.get_AW` is read; `rest` stands for everything after that. -/
def writeFrog (rest : PyM FileWorld Unit) : PyM FileWorld Unit := do
  setOwn "fileloc"
  readAttr "get_AW"
  readAttr "internal_wl_to_nm"
  rest

/-- `except IOError` around a body: none of the modelled exceptions is an `IOError`, so all of them pass. -/
def exceptIOError (body : PyM FileWorld Unit) : PyM FileWorld Unit := body

/-- `DerivedPulses.py:219-277` `gen_OSA`: `fileloc`, the time window and `center_wl` are set, then `self.c` is read; `rest` stands for
everything after that. -/
def genOSA (tw : ℝ) (rest : PyM FileWorld Unit) : PyM FileWorld Unit := exceptIOError do
  setOwn "fileloc"
  PyM.modify fun w => { w with pulse := setTimeWindowPs tw w.pulse }
  setOwn "center_wl"
  readAttr "c"
  rest

end PyNLO.Pulse
