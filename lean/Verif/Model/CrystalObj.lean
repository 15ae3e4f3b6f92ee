import Verif.Model.Crystal

/-!
# Crystal objects and `Boyd.load`

`src/pynlo/media/crystals/CrystalContainer.py:29-77`, `176-194`, `src/pynlo/media/crystals/Boyd.py:25-34`, and the methods of the
beam classes that ask a crystal for its index (`src/pynlo/light/beam.py:167-171`, `src/pynlo/light/high_V_waveguide.py:76-88`).

Crystals are numbered in the order of their creation.  The cache of refractive indices is a class attribute.  The class-level damage
threshold is in `Classes`.
-/

namespace PyNLO.XtalObj

open Real Xtal

/-- Where the attribute `n` of a crystal comes from: nowhere (`Crystal(params)`), a PPLN calculator, or the method of a uniaxial crystal. -/
inductive Medium where
  | bare
  | ppln (p : PPLN)
  | biref (b : Biref)

/-- `self.n` as `get_pulse_n` uses it, if the attribute exists. -/
noncomputable def Medium.idx (m : Medium) (caching : Bool) : Option Idx :=
  match m with
  | .bare => none
  | .ppln p => some (p.idx caching)
  | .biref b => some (b.idx caching)

/-- Attributes of a crystal.  `len = none` is `None`; the other options are `none` when the attribute does not exist. -/
structure Obj where
  len : Option ℝ
  caching : Bool
  med : Medium
  mode : Option String
  deff : Option ℝ
  n0 : Option ℝ
  pp : Option Pp

/-- All crystals, and the class attribute `_cached_ns` (`CrystalContainer.py:36`). -/
structure World where
  objs : List Obj
  cache : String → Option (List NFlt)

def World.start : World := ⟨[], fun _ => none⟩

/-- `Crystal.__init__` (`CrystalContainer.py:40-48`): `length` and `enable_caching` are keys of a dictionary that may be absent. -/
def Obj.init (len : Option (Option ℝ)) (caching : Option Bool) : Obj :=
  { len := match len with
      | some l => l
      | none => some 1
    caching := match caching with
      | some b => b
      | none => false
    med := .bare, mode := none, deff := none, n0 := none, pp := none }

/-- `PPLN(T, **params)` (`XTAL_PPLN.py:82-107`). -/
noncomputable def Obj.ppln (T : ℝ) (len : Option (Option ℝ)) (caching : Option Bool) : Obj :=
  { Obj.init len caching with med := .ppln (PPLN.load T), mode := some "PP", deff := some 14.9e-12, pp := some (.const 30.49e-6) }

/-- `AgGaSe2(theta, **params)` (`XTAL_AgGaSe2.py:31-63`). -/
noncomputable def Obj.agGaSe2 (theta : ℝ) (len : Option (Option ℝ)) (caching : Option Bool) : Obj :=
  { Obj.init len caching with med := .biref (Xtal.agGaSe2 theta), mode := some "BPM", deff := some 28.5e-12 }

/-- `Boyd.load(crystal, params)` (`Boyd.py:25-34`).  `params` is not read.  The attribute `n` is not assigned. -/
noncomputable def Obj.boyd (o : Obj) : Obj := { o with mode := some "simple", n0 := some 2, deff := some 4e-12 }

/-- `crystal.get_n(*args)`: `Boyd.load` stores a function of two arguments in the instance, which is not bound to it
(`Boyd.py:32-34`).  `args` says which crystals and wavelengths are passed. -/
noncomputable def Obj.getN (o : Obj) (args : List (Obj ⊕ ℝ)) : Except PyErr ℝ :=
  match o.n0 with
  | none => .error .AttributeError
  | some _ =>
    match args with
    | [.inl c, _] =>
      match c.n0 with
      | none => .error .AttributeError
      | some x => .ok x
    | [.inr _, _] => .error .AttributeError
    | _ => .error .TypeError

/-- `length_mks`, `length_nm` (`CrystalContainer.py:186-191`). -/
def Obj.lengthMks (o : Obj) : Option ℝ := o.len
noncomputable def Obj.lengthNm (o : Obj) : Except PyErr ℝ :=
  match o.len with
  | none => .error .TypeError
  | some l => .ok (l * 1e9)

/-- `get_pulse_n` (`CrystalContainer.py:60-77`) of any crystal: the cache is looked up before `self.n` is. -/
noncomputable def Obj.pulseN (o : Obj) (hash : String) (wl : Vec ℝ) (axis : Option String) (cache : String → Option (List NFlt)) :
    Except PyErr (List NFlt) × (String → Option (List NFlt)) :=
  match o.med.idx o.caching with
  | some x => getPulseN x hash wl axis cache
  | none =>
    if o.caching then
      match cache (hash ++ strAxis axis) with
      | some ns => (.ok ns, cache)
      | none => (.error .AttributeError, cache)
    else (.error .AttributeError, cache)

/-- One entry of `2.0 * np.pi * n / wl_mks`; NumPy does not raise when the wavelength is zero. -/
noncomputable def kEntry (n : NFlt) (wlMks : ℝ) : NFlt := if wlMks = 0 then .bad else n.map fun x => 2 * π * x / wlMks

/-- `get_pulse_k` (`CrystalContainer.py:52-59`) for the pulse with wavelengths `wl` in nm; `wl_mks` (`PulseBase.py:135-136`) is
taken to be `1e-9*wl_nm`, which C05 shows.  The cache is not used. -/
noncomputable def Obj.pulseK (o : Obj) (wl : Vec ℝ) (axis : Option String) : Except PyErr (List NFlt) :=
  match o.med.idx o.caching with
  | some x =>
    match x.array axis wl with
    | .error e => .error e
    | .ok ns => .ok (List.zipWith (fun n l => kEntry n (l * 1e-9)) ns (List.ofFn wl.val))
  | none => .error .AttributeError

/-- What `set_caching` may be given: a bool, a number, or an object that equals neither `True` nor `False`. -/
inductive CacheArg where
  | bool (b : Bool)
  | num (x : ℝ)
  | other

open Classical in
/-- `set_caching` (`CrystalContainer.py:176-185`). -/
noncomputable def Obj.setCaching (o : Obj) : CacheArg → Except PyErr Obj
  | .bool b => .ok { o with caching := b }
  | .num x => if x = 1 then .ok { o with caching := true } else if x = 0 then .ok { o with caching := false } else .error .AssertionError
  | .other => .error .AssertionError

/-- `set_T` (`XTAL_PPLN.py:116-118`); other crystals have no such method. -/
noncomputable def Obj.setT (o : Obj) (T : ℝ) : Except PyErr Obj :=
  match o.med with
  | .ppln p => .ok { o with med := .ppln (p.setT T) }
  | _ => .error .AttributeError

/-- `set_theta` (`XTAL_AgGaSe2.py:64-65`). -/
def Obj.setTheta (o : Obj) (t : ℝ) : Except PyErr Obj :=
  match o.med with
  | .biref b => .ok { o with med := .biref (b.setTheta t) }
  | _ => .error .AttributeError

/-- `set_pp` (`XTAL_PPLN.py:111-115`). -/
def Obj.setPp (o : Obj) (p : Xtal.PpArg) : Except PyErr Obj :=
  match o.med with
  | .ppln _ => .ok { o with pp := some (Xtal.setPp p) }
  | _ => .error .AttributeError

/-- Statements of a program that works with crystals. -/
inductive Op where
  | crystal (len : Option (Option ℝ)) (caching : Option Bool)
  | ppln (T : ℝ) (len : Option (Option ℝ)) (caching : Option Bool)
  | agGaSe2 (theta : ℝ) (len : Option (Option ℝ)) (caching : Option Bool)
  | boyd (i : ℕ)
  | setT (i : ℕ) (T : ℝ)
  | setTheta (i : ℕ) (t : ℝ)
  | setPp (i : ℕ) (p : Xtal.PpArg)
  | setPpChirp (i : ℕ) (start stop : ℝ)
  | setCaching (i : ℕ) (v : CacheArg)
  | readN (i : ℕ) (hash : String) (wl : Vec ℝ) (axis : Option String)
  | readK (i : ℕ) (wl : Vec ℝ) (axis : Option String)

/-- A method call on the `i`-th crystal. -/
def World.on (w : World) (i : ℕ) (f : Obj → Except PyErr Obj) : World :=
  match w.objs[i]? with
  | none => w
  | some o =>
    match f o with
    | .error _ => w
    | .ok o' => { w with objs := w.objs.set i o' }

/-- The objects after a statement; exceptions are caught by the program. -/
noncomputable def World.step (w : World) : Op → World
  | .crystal l c => { w with objs := w.objs ++ [Obj.init l c] }
  | .ppln T l c => { w with objs := w.objs ++ [Obj.ppln T l c] }
  | .agGaSe2 t l c => { w with objs := w.objs ++ [Obj.agGaSe2 t l c] }
  | .boyd i => w.on i fun o => .ok o.boyd
  | .setT i T => w.on i fun o => o.setT T
  | .setTheta i t => w.on i fun o => o.setTheta t
  | .setPp i p => w.on i fun o => o.setPp p
  | .setPpChirp i a b => w.on i fun o => .ok { o with pp := some (.chirp a b) }
  | .setCaching i v => w.on i fun o => o.setCaching v
  | .readN i h wl ax =>
    match w.objs[i]? with
    | none => w
    | some o => { w with cache := (o.pulseN h wl ax w.cache).2 }
  | .readK _ _ _ => w

/-- The objects after a program. -/
noncomputable def World.run (w : World) (l : List Op) : World := l.foldl World.step w

/-- `get_pulse_n` and `get_pulse_k` of the `i`-th crystal. -/
noncomputable def World.pulseN (w : World) (i : ℕ) (hash : String) (wl : Vec ℝ) (axis : Option String) : Except PyErr (List NFlt) :=
  match w.objs[i]? with
  | none => .error .NameError
  | some o => (o.pulseN hash wl axis w.cache).1
noncomputable def World.pulseK (w : World) (i : ℕ) (wl : Vec ℝ) (axis : Option String) : Except PyErr (List NFlt) :=
  match w.objs[i]? with
  | none => .error .NameError
  | some o => o.pulseK wl axis

/-- `get_n_in_crystal`, `get_k_in_crystal` of a beam along `axis` (`beam.py:167-171`, `high_V_waveguide.py:84-88`). -/
noncomputable def World.nInCrystal (w : World) (axis : Option String) (hash : String) (wl : Vec ℝ) (i : ℕ) : Except PyErr (List NFlt) :=
  w.pulseN i hash wl axis
noncomputable def World.kInCrystal (w : World) (axis : Option String) (wl : Vec ℝ) (i : ℕ) : Except PyErr (List NFlt) :=
  w.pulseK i wl axis

end PyNLO.XtalObj
