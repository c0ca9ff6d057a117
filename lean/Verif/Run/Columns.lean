/-
Model of the columns of property files.

* `PropertyOutput.print_header` (ipi/engine/outputs.py:232-260) and the row written by `PropertyOutput.write` 262-297;
* the property table `Properties.__init__` (ipi/engine/properties.py:243-965): declared size of each property and shape of the value
  returned by its function (read off the functions), `bind` 992 (size of `bead_potentials`), `get_atom_vec` 1051-1083;
* the bead streams of `TrajectoryOutput.open_stream` 393-409 and `write` 448-490.
-/
namespace Verif.Columns

/-- Declared size in the property table. `name` stands for a size left as text. -/
inductive Decl where
  | absent
  | num (n : Int)
  | beads
  | name
deriving DecidableEq

/-- Size after `bind` (properties.py:992). -/
def Decl.bound (nbeads : Nat) : Decl → Decl
  | .beads => .num nbeads
  | d => d

/-- Columns announced for a property: first column and number of columns (outputs.py:243-254). -/
def headerOne (icol : Nat) : Decl → Except String (Nat × Nat)
  | .absent => .ok (icol, 1)
  | .num n => if n = 1 then .ok (icol, 1) else if n ≤ 0 then .error "RuntimeError" else .ok (icol, n.toNat)
  | .beads => .error "RuntimeError"
  | .name => .error "RuntimeError"

/-- All columns announced, counting from `icol`. -/
def header (icol : Nat) : List Decl → Except String (List (Nat × Nat))
  | [] => .ok []
  | d :: ds =>
    match headerOne icol d with
    | .error e => .error e
    | .ok c =>
      match header (c.1 + c.2) ds with
      | .error e => .error e
      | .ok cs => .ok (c :: cs)

/-- Value of a property: a number or a one-dimensional array. -/
inductive Quantity (V : Type) where
  | scalar (v : V)
  | vec (vs : List V)

/-- Numbers written for a value (outputs.py:284-288). -/
def Quantity.values {V : Type} : Quantity V → List V
  | .scalar v => [v]
  | .vec vs => vs

/-- The row (outputs.py:274-288). -/
def row {V : Type} (qs : List (Quantity V)) : List V := qs.flatMap Quantity.values

/-- Shape of the value returned by a property's function. -/
inductive Shape where
  | scalar
  | vec (n : Nat)
  | beads
  /-- `get_atom_vec` with user-supplied atom and bead -/
  | atom
  /-- three numbers for every bead (properties.py:569-592) -/
  | path
deriving DecidableEq

/-- Length of the python slice `[lo : hi]` of an array of length `n`. -/
def sliceLen (n : Nat) (lo hi : Int) : Nat :=
  let clip := fun (i : Int) => if i < 0 then max (i + n) 0 else min i n
  (clip hi - clip lo).toNat

/-- Number of values returned by `get_atom_vec` for given atom and bead (properties.py:1051-1083); adding an array of another length to
`zeros(3)` fails. -/
def atomLen (natoms nbeads : Nat) (atom bead : Int) : Except String Nat :=
  if (natoms : Int) ≤ atom then .error "IndexError"
  else if (nbeads : Int) ≤ bead then .error "IndexError"
  else
    let n := sliceLen (3 * natoms) (3 * atom) (3 * (atom + 1))
    if bead < 0 then (if n = 3 then .ok 3 else .error "ValueError") else .ok n

/-- Number of values of a property. -/
def Shape.len (natoms nbeads : Nat) (atom bead : Int) : Shape → Except String Nat
  | .scalar => .ok 1
  | .vec n => .ok n
  | .beads => .ok nbeads
  | .atom => atomLen natoms nbeads atom bead
  | .path => .ok (3 * nbeads)

/-- The table: name, declared size, shape of the value (line in properties.py). -/
def table : List (String × Decl × Shape) := [
  ("step", .absent, .scalar),  -- 241
  ("time", .absent, .scalar),  -- 246
  ("temperature", .absent, .scalar),  -- 251
  ("density", .absent, .scalar),  -- 262
  ("volume", .absent, .scalar),  -- 267
  ("cell_h", .num 6, .vec 6),  -- 272
  ("cell_abcABC", .num 6, .vec 6),  -- 278
  ("Efield", .num 3, .vec 3),  -- 287
  ("Eenvelope", .absent, .scalar),  -- 293
  ("conserved", .absent, .scalar),  -- 304
  ("dipole", .num 3, .vec 3),  -- 309
  ("interaction_energy", .absent, .scalar),  -- 315
  ("ensemble_lp", .absent, .scalar),  -- 320
  ("ensemble_temperature", .absent, .scalar),  -- 325
  ("ensemble_pressure", .absent, .scalar),  -- 330
  ("hweights_component", .absent, .scalar),  -- 335
  ("ensemble_bias", .absent, .scalar),  -- 342
  ("bweights_component", .absent, .scalar),  -- 347
  ("potential", .absent, .scalar),  -- 357
  ("bead_potentials", .beads, .beads),  -- 364
  ("potential_opsc", .absent, .scalar),  -- 370
  ("potential_tdsc", .absent, .scalar),  -- 377
  ("pot_component", .absent, .scalar),  -- 382
  ("pot_component_raw", .absent, .scalar),  -- 398
  ("vir_component", .num 6, .vec 6),  -- 417
  ("vir_component_raw", .num 6, .vec 6),  -- 435
  ("forcemod", .absent, .scalar),  -- 457
  ("spring", .absent, .scalar),  -- 470
  ("kinetic_md", .absent, .scalar),  -- 475
  ("kinetic_cv", .absent, .scalar),  -- 486
  ("kinetic_td", .absent, .scalar),  -- 494
  ("kinetic_prsc", .absent, .scalar),  -- 502
  ("kinetic_tdsc", .absent, .scalar),  -- 507
  ("kinetic_opsc", .absent, .scalar),  -- 516
  ("kinetic_tens", .num 6, .vec 6),  -- 524
  ("kinetic_ij", .num 6, .vec 6),  -- 534
  ("r_gyration", .absent, .scalar),  -- 544
  ("atom_x", .num 3, .atom),  -- 552
  ("atom_x_path", .absent, .path),  -- 564
  ("atom_f_path", .absent, .path),  -- 578
  ("atom_v", .num 3, .atom),  -- 592
  ("vcom", .num 3, .vec 3),  -- 604
  ("atom_p", .num 3, .atom),  -- 612
  ("atom_f", .num 3, .atom),  -- 624
  ("stress_md", .num 6, .vec 6),  -- 636
  ("pressure_md", .absent, .scalar),  -- 648
  ("kstress_md", .num 6, .vec 6),  -- 657
  ("virial_fq", .num 1, .scalar),  -- 665
  ("virial_md", .num 6, .vec 6),  -- 674
  ("stress_cv", .num 6, .vec 6),  -- 682
  ("pressure_tdsc", .absent, .scalar),  -- 693
  ("vir_tdsc", .absent, .scalar),  -- 703
  ("kstress_tdsc", .absent, .scalar),  -- 711
  ("pressure_cv", .absent, .scalar),  -- 719
  ("kstress_cv", .num 6, .vec 6),  -- 727
  ("virial_cv", .num 6, .vec 6),  -- 739
  ("displacedpath", .absent, .scalar),  -- 751
  ("scaledcoords", .num 2, .vec 2),  -- 764
  ("sc_op_scaledcoords", .num 2, .vec 2),  -- 780
  ("sc_scaledcoords", .num 2, .vec 2),  -- 797
  ("isotope_scfep", .num 7, .vec 7),  -- 813
  ("isotope_tdfep", .num 7, .vec 7),  -- 835
  ("isotope_zetatd", .num 3, .vec 3),  -- 858
  ("isotope_zetasc", .num 3, .vec 3),  -- 870
  ("chin_weight", .num 3, .vec 3),  -- 882
  ("ti_weight", .num 3, .vec 3),  -- 890
  ("ti_pot", .num 1, .scalar),  -- 898
  ("isotope_zetatd_4th", .num 5, .vec 5),  -- 908
  ("isotope_zetasc_4th", .num 5, .vec 5),  -- 922
  ("exchange_distinct_prob", .num 1, .scalar),  -- 935
  ("exchange_all_prob", .num 1, .scalar),  -- 945
  ("fermionic_sign", .num 1, .scalar)  -- 954
]

/-! ### trajectories -/

/-- Beads for which a stream is opened (outputs.py:396-404). -/
def opened (ibead : Int) (nbeads : Nat) : List Bool :=
  (List.range nbeads).map fun (b : Nat) => (decide (ibead < 0) && decide ((b : Int) % (-ibead) = 0)) || decide (ibead = (b : Int))

/-- Beads written by one call of `write` (outputs.py:455-490); writing to a missing stream would fail. -/
def written (ibead : Int) (nbeads : Nat) : Except String (List Nat) :=
  let out := opened ibead nbeads
  if ibead < 0 then .ok ((List.range out.length).filter fun b => out.getD b false)
  else if ibead < out.length then
    (if out.getD ibead.toNat false then .ok [ibead.toNat] else .error "AttributeError")
  else .error "ValueError"

end Verif.Columns
