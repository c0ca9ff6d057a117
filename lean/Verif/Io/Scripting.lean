import Mathlib.Analysis.SpecialFunctions.Sqrt
/-
Model of what scripts ask for (ipi/scripting/templates.py, ipi/scripting/interactive.py, ipi/utils/units.py):

* `forcefield_xml` templates.py:133-176, `motion_nvt_xml` 179-209, masses, names and cells in `simulation_xml` 68-91;
* what `InputFFSocket` makes of such a block (ipi/inputs/forcefields.py:187-202, 259-267, 341-361);
* `properties` interactive.py:102-114 with `unit_to_user(dimension, "ase", 1.0)` (units.py:376-434) and the declared dimensions of all
  properties (ipi/engine/properties.py:240-990);
* the units of ASE (units.py:306-337).

XML is a tree of one level (tag, attributes, fields); text is not escaped. Parameters of force fields are left out, numbers are given as text.
-/
namespace Verif.Scripting

/-- An XML element with its fields. -/
structure Xml where
  tag : String
  attrs : List (String × String)
  fields : List (String × String)

inductive Err where
  | value
  | unbound
  | index
  | type
  | attribute
deriving DecidableEq

/-- Value of a key in an association list. -/
def get (k : String) (l : List (String × String)) : Option String := (l.find? (·.1 == k)).map (·.2)

/-- `forcefield_xml` (templates.py:133-176); `drivers` are the keys of `__drivers__`. -/
def forcefieldXml (drivers : List String) (name mode : String) (pes address port : Option String) : Except Err Xml :=
  if mode = "direct" then
    match pes with
    | none => .error .value
    | some p => if p ∈ drivers then .ok ⟨"ffdirect", [("name", name)], [("pes", p)]⟩ else .error .value
  else if mode = "unix" ∨ mode = "inet" then
    match address with
    | none => .error .value
    | some a =>
      if mode = "inet" then
        match port with
        | none => .error .value
        | some p => .ok ⟨"ffsocket", [("name", name)], [("address", a), ("port", p), ("latency", "1e-4")]⟩
      else .ok ⟨"ffsocket", [("name", name)], [("address", a), ("latency", "1e-4")]⟩
  else .error .value

/-- What the server listens on. -/
inductive Listen where
  | unix (address : String)
  | inet (address port : String)
  | shm (address : String)
deriving DecidableEq

/-- `InputFFSocket.fetch` with the defaults of mode, address and port (inputs/forcefields.py:187-202, 259-267). -/
def readSocket (x : Xml) : Except Err Listen :=
  let address := (get "address" x.fields).getD "localhost"
  let port := (get "port" x.fields).getD "65535"
  let mode := (get "mode" x.attrs).getD "inet"
  if mode = "unix" then .ok (.unix address)
  else if mode = "shm" then .ok (.shm address)
  else if mode = "inet" then .ok (.inet address port)
  else .error .value

/-- `motion_nvt_xml` (templates.py:179-209): the block of the thermostat in the result. `xml_thermostat` is only assigned if `thermostat`
is `None`. -/
def motionNvt (thermostat : Option Xml) (pathIntegrals : Bool) (tau : String) : Except Err Xml :=
  let xml : Option Xml :=
    match thermostat with
    | none =>
      if pathIntegrals then some ⟨"thermostat", [("mode", "pile_g")], [("tau", tau), ("pile_lambda", "0.5")]⟩
      else some ⟨"thermostat", [("mode", "svr")], [("tau", tau)]⟩
    | some _ => none
  match xml with
  | none => .error .unbound
  | some x => .ok x

/-- `ase.Atoms`: symbols, cell and the arrays by name. -/
structure Structure (C : Type) where
  symbols : List String
  cell : C
  arrays : List (String × List ℝ)

/-- `ase.Atoms.set_masses`: the array is called "masses" (package ase, not part of /repo). -/
def Structure.setMasses {C : Type} (s : Structure C) (m : List ℝ) : Structure C :=
  { s with arrays := ("masses", m) :: s.arrays.filter (·.1 != "masses") }

/-- `beads.m` in `simulation_xml` (templates.py:83-86), `u` being the unit of mass. -/
noncomputable def massesOf {C : Type} (element : String → ℝ) (u : ℝ) (s : Structure C) : List ℝ :=
  match s.arrays.find? (·.1 == "mass") with
  | some a => a.2.map (· * u)
  | none => s.symbols.map element

/-- Names, masses and cell of a list of structures (templates.py:68-91): those of the first. -/
noncomputable def systemOf {C : Type} (element : String → ℝ) (u : ℝ) : List (Structure C) → Except Err (List String × List ℝ × C)
  | [] => .error .index
  | s :: _ => .ok (s.symbols, massesOf element u s, s.cell)

/-! ### units of ASE -/

/-- Families of `UnitMap` (units.py:203-304). -/
def families : List String :=
  ["undefined", "energy", "temperature", "time", "frequency", "electric-field", "electric-dipole", "ms-momentum", "length", "action",
   "volume", "velocity", "momentum", "mass", "pressure", "density", "force", "hessian"]

/-- The constants the table is made from: eV in Hartree, Angstrom in Bohr, the atomic mass unit, Boltzmann's constant in eV. -/
structure Ase where
  e : ℝ
  l : ℝ
  amu : ℝ
  kb : ℝ

/-- `UnitMap[family]["ase"]` (units.py:310-337). -/
noncomputable def Ase.unit (c : Ase) : String → Option ℝ
  | "undefined" => some 1
  | "energy" => some c.e
  | "length" => some c.l
  | "temperature" => some (c.kb * c.e)
  | "time" => some (c.l * √(c.amu / c.e))
  | "velocity" => some (c.l / (c.l * √(c.amu / c.e)))
  | "force" => some (c.e / c.l)
  | "volume" => some (c.l ^ 3)
  | "frequency" => some (1 / (c.l * √(c.amu / c.e)))
  | "action" => some (c.e * (c.l * √(c.amu / c.e)))
  | "mass" => some (c.e / (c.l / (c.l * √(c.amu / c.e))) ^ 2)
  | "pressure" => some (c.e / c.l ^ 3)
  | "momentum" => some (c.e / (c.l / (c.l * √(c.amu / c.e))) ^ 2 * (c.l / (c.l * √(c.amu / c.e))))
  | "density" => some (c.e / (c.l / (c.l * √(c.amu / c.e))) ^ 2 / c.l ^ 3)
  | "hessian" => some (c.e / c.l ^ 2)
  | "electric-dipole" => some c.l
  | "electric-field" => some (c.e / c.l)
  | _ => none

/-- `unit_to_internal(family, "ase", 1.0)` (units.py:396-419): "ase" has no prefix. -/
noncomputable def Ase.internal (c : Ase) (family : String) : Except Err ℝ :=
  if family = "number" then .ok 1
  else if family ∈ families then
    match c.unit family with
    | some u => .ok u
    | none => .error .type
  else .error .index

/-- `value * unit_to_user(dimension, "ase", 1.0)` (interactive.py:110): the unit in the key is not used. -/
noncomputable def Ase.property (c : Ase) (value : ℝ) (dimension _unit : String) : Except Err ℝ :=
  match c.internal dimension with
  | .ok u => .ok (value * (1 / u))
  | .error e => .error e

/-- The declared dimension of every property (properties.py:240-990). -/
def dimensions : List (String × String) :=
  [("step", "number"), ("time", "time"), ("temperature", "temperature"), ("density", "density"),
   ("volume", "volume"), ("cell_h", "length"), ("cell_abcABC", "undefined"), ("Efield", "electric-field"),
   ("Eenvelope", "undefined"), ("conserved", "energy"), ("dipole", "electric-dipole"), ("interaction_energy", "energy"),
   ("ensemble_lp", "undefined"), ("ensemble_temperature", "temperature"), ("ensemble_pressure", "pressure"), ("hweights_component", ""),
   ("ensemble_bias", "energy"), ("bweights_component", ""), ("potential", "energy"), ("bead_potentials", "energy"),
   ("potential_opsc", "energy"), ("potential_tdsc", "energy"), ("pot_component", "energy"), ("pot_component_raw", "energy"),
   ("vir_component", "pressure"), ("vir_component_raw", "pressure"), ("forcemod", "force"), ("spring", "energy"),
   ("kinetic_md", "energy"), ("kinetic_cv", "energy"), ("kinetic_td", "energy"), ("kinetic_prsc", "energy"),
   ("kinetic_tdsc", "energy"), ("kinetic_opsc", "energy"), ("kinetic_tens", "energy"), ("kinetic_ij", "energy"),
   ("r_gyration", "length"), ("atom_x", "length"), ("atom_x_path", "length"), ("atom_f_path", "length"),
   ("atom_v", "velocity"), ("vcom", "velocity"), ("atom_p", "momentum"), ("atom_f", "force"),
   ("stress_md", "pressure"), ("pressure_md", "pressure"), ("kstress_md", "pressure"), ("virial_fq", "energy"),
   ("virial_md", "pressure"), ("stress_cv", "pressure"), ("pressure_tdsc", "pressure"), ("vir_tdsc", "pressure"),
   ("kstress_tdsc", "pressure"), ("pressure_cv", "pressure"), ("kstress_cv", "pressure"), ("virial_cv", "pressure"),
   ("displacedpath", "undefined"), ("scaledcoords", "undefined"), ("sc_op_scaledcoords", "undefined"), ("sc_scaledcoords", "undefined"),
   ("isotope_scfep", "undefined"), ("isotope_tdfep", "undefined"), ("isotope_zetatd", "undefined"), ("isotope_zetasc", "undefined"),
   ("chin_weight", "undefined"), ("ti_weight", "undefined"), ("ti_pot", "energy"), ("isotope_zetatd_4th", "undefined"),
   ("isotope_zetasc_4th", "undefined"), ("exchange_distinct_prob", "undefined"), ("exchange_all_prob", "undefined"), ("fermionic_sign", "undefined")]

end Verif.Scripting
