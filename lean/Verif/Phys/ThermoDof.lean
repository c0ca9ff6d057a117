import Mathlib.Data.Int.Basic

/-!
# The number of degrees of freedom seen by a velocity rescaling thermostat

Models `Dynamics.get_fixdof` (`ipi/engine/motion/dynamics.py` 122-130) and the parts of
`thermostats.py` that set `ndof`.  `natoms` atoms, `nb` beads; `fix` is the list of fixed degrees of
freedom of one bead.
-/

namespace Verif.Thermo

/-- `Dynamics.get_fixdof` (`dynamics.py` 122-130). -/
def getFixdof (fix : List ℕ) (fixcom : Bool) (nb : ℕ) : ℤ :=
  fix.length * nb + if fixcom then 3 else 0

/-- `Thermostat.bind` (`thermostats.py` 134-137). -/
def ndof (len : ℕ) (fixdof : Option ℤ) : ℤ :=
  match fixdof with
  | none => len
  | some f => len - f

/-- `ThermoSVR` bound to the beads by `Dynamics.bind` (`dynamics.py` 166-174). -/
def ndofSvr (natoms nb : ℕ) (fix : List ℕ) (fixcom : Bool) : ℤ :=
  ndof (nb * (3 * natoms)) (some (getFixdof fix fixcom nb))

/-- The centroid thermostat of `ThermoPILE_G` (`thermostats.py` 601-614); `fixcom` is the argument it
is given, `fixdof` the number. -/
def ndofPileG (natoms nb : ℕ) (fixdof : ℤ) (fixcom : Bool) : ℤ :=
  let ncom : ℤ := if fixcom then 3 else 0
  ndof (3 * natoms) (some ((fixdof - ncom) / nb + ncom))

/-- `ThermoPILE_G` bound by `Dynamics.bind`. -/
def ndofPileGDyn (natoms nb : ℕ) (fix : List ℕ) (fixcom : Bool) : ℤ :=
  ndofPileG natoms nb (getFixdof fix fixcom nb) fixcom

/-- `ThermoPILE_G` inside a `MultiThermo`, which does not hand on `fixcom`
(`thermostats.py` 1331-1333). -/
def ndofPileGMulti (natoms nb : ℕ) (fix : List ℕ) (fixcom : Bool) : ℤ :=
  ndofPileG natoms nb (getFixdof fix fixcom nb) false

/-- The velocity rescaling added to the centroid by `ThermoNMGLEG.bind`, bound without `fixdof`
(`thermostats.py` 1043-1049). -/
def ndofNmgleg (natoms : ℕ) : ℤ := ndof (3 * natoms) none

end Verif.Thermo
