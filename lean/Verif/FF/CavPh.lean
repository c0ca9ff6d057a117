import Verif.Phys.Pes

/-!
Model of `FFCavPhSocket.queue` (ipi/engine/forcefields.py:2249-2490) from the result of the client to what is returned, for the one bath that
the constructor sets up (L2143) and `apply_photon` set.  The formulas for energies and forces are those of `Verif.Pes.Cavity`.

* Coordinates are those of `N` atoms followed by those of the photons; `act` says which atoms are in the active list: the interface returns
  zero for the forces on all others (C17).
* `softexit.trigger` is the outcome `exit`: nothing is returned to the simulation afterwards.
* The offset is subtracted by the interface and here once more (C18).
* The virial and the extras are those of the client: with one bath `combine_bath_extras` (L2206-2211) only adds an empty `raw`.
-/

namespace Verif.CavPh

open Verif.Pes Finset

variable {N : ℕ}

/-- The options of the force field that matter here (L2093-2110). -/
structure Setup (N : ℕ) where
  evaluate : Bool
  surface : Bool
  charges : List ℝ
  offset : ℝ
  act : Fin N → Bool

/-- The entries `dipole` and `dipole_derivative` of the extras of the client. -/
structure Extras where
  dipole : Option (List ℝ)
  der : Option (List ℝ)

inductive Res (c : Cavity) (N : ℕ) where
  | keyError
  | exit
  | done (u : ℝ) (f : (Fin N × Fin 3) ⊕ Fin c.dim → ℝ)

/-- What the interface makes of the forces of the client: zero for atoms that are not active. -/
def masked (act : Fin N → Bool) (f : Cfg N) : Cfg N := fun x => if act x.1 then f x else 0

/-- `charge_array` -/
def charge (z : List ℝ) : Fin N → ℝ := fun a => z.getD a 0

/-- Entry `9a + 3k + d` of `dipole_derivative` (L2073-2079: `dipole_der[3k + d::9]`). -/
def derOf (l : List ℝ) : Fin N → Fin 3 → Fin 3 → ℝ := fun a k d => l.getD (9 * a + 3 * k + d) 0

/-- The dipole used and its derivatives (L2395-2445). The derivatives of the dipole of point charges are not formed by the code, which
multiplies the coefficient with the charges: see `nuc`. -/
inductive Dip (N : ℕ) where
  | surface (dx dy : ℝ) (der : Fin N → Fin 3 → Fin 3 → ℝ)
  | charges (dx dy : ℝ) (z : Fin N → ℝ)

def Dip.x : Dip N → ℝ
  | .surface dx _ _ => dx
  | .charges dx _ _ => dx

def Dip.y : Dip N → ℝ
  | .surface _ dy _ => dy
  | .charges _ dy _ => dy

/-- `get_nuc_cav_forces` (L2034-2081) -/
noncomputable def Dip.nuc (c : Cavity) (ph : Fin c.dim → ℝ) : Dip N → Cfg N
  | .surface dx dy der => c.nucForceDer der dx dy ph
  | .charges dx dy z => c.nucForce z dx dy ph

inductive DipRes (N : ℕ) where
  | keyError
  | exit
  | got (d : Dip N)

/-- L2395-2445: the entries of the extras are looked up (L2401-2404) before the presence of the keys is acted upon. -/
noncomputable def dipoleOf (s : Setup N) (q : Cfg N) (ex : Extras) : DipRes N :=
  if s.surface then
    match ex.dipole, ex.der with
    | none, _ => .keyError
    | some d, der? =>
      if d.length = 3 then
        match der? with
        | none => .keyError
        | some der => if der.length = 9 * N then .got (.surface (d.getD 0 0) (d.getD 1 0) (derOf der)) else .exit
      else .exit
  else if s.charges.length ≠ N then .exit
  else .got (.charges (dipole (charge s.charges) q 0) (dipole (charge s.charges) q 1) (charge s.charges))

/-- `queue` with photons, for the result `(u, f, ex)` of the client. -/
noncomputable def queue (c : Cavity) (s : Setup N) (q : Cfg N) (ph : Fin c.dim → ℝ) (u : ℝ) (f : Cfg N) (ex : Extras) : Res c N :=
  if s.evaluate then
    match dipoleOf s q ex with
    | .keyError => .keyError
    | .exit => .exit
    | .got d => .done (u - s.offset + c.energy d.x d.y ph - s.offset) fun
        | .inl x => masked s.act f x + d.nuc c ph x
        | .inr i => c.phForce d.x d.y ph i
  else .done (u - s.offset + 0 - s.offset) fun
    | .inl x => masked s.act f x + 0
    | .inr _ => 0

/-- A driver attached to the simulation: energy and forces as functions of the positions of the atoms, and the extras. -/
structure Client (N : ℕ) where
  set : Setup N
  pot : Cfg N → ℝ
  force : Cfg N → Cfg N
  extras : Cfg N → Extras

/-- The positions of the atoms and of the photons (`split_atom_ph_coord`, L1945-1962). -/
def atomsOf {c : Cavity} (r : (Fin N × Fin 3) ⊕ Fin c.dim → ℝ) : Cfg N := fun x => r (.inl x)
def photonsOf {c : Cavity} (r : (Fin N × Fin 3) ⊕ Fin c.dim → ℝ) : Fin c.dim → ℝ := fun i => r (.inr i)

noncomputable def Client.run (c : Cavity) (k : Client N) (r : (Fin N × Fin 3) ⊕ Fin c.dim → ℝ) : Res c N :=
  queue c k.set (atomsOf r) (photonsOf r) (k.pot (atomsOf r)) (k.force (atomsOf r)) (k.extras (atomsOf r))

/-- The sum over the force components with weights one (`Forces.pots`, `Forces.forces_mts`): energy and forces, if every driver returned. -/
noncomputable def total (c : Cavity) : List (Client N) → ((Fin N × Fin 3) ⊕ Fin c.dim → ℝ) → Option (ℝ × ((Fin N × Fin 3) ⊕ Fin c.dim → ℝ))
  | [], _ => some (0, 0)
  | k :: ks, r => match k.run c r, total c ks r with
    | .done u f, some (u', f') => some (u + u', f + f')
    | _, _ => none

end Verif.CavPh
