import Verif.Phys.EstimSC

/-!
# The state kept by the properties between requests

Model of what `Properties` and `Trajectories` (ipi/engine/properties.py) remember from one request to the
next: the positions and the cell of the copies made for displaced paths, and the reference of `virial_fq`.
-/

namespace Verif.Estim

open Finset

section
variable {n N : ℕ} {H : Type}

/-- What does not change during a run: the forcefields, as functions of a cell of type `H` and of the
positions, masses, names and temperature; `file` is the content of the files with references in the given
unit (`np.loadtxt(ref).flatten()` times the unit, ipi/engine/properties.py L1309-L1315; the error for a
missing file or a wrong length is a value). -/
structure Env (n N : ℕ) (H : Type) where
  pots : H → Conf n N → Fin (n + 1) → ℝ
  f : H → Conf n N → Conf n N
  m : Fin N → ℝ
  names : Fin N → String
  kB : ℝ
  T : ℝ
  hbar : ℝ
  omegan2 : ℝ
  alpha : ℝ
  fd : Fd
  file : String → String → Except Err (Fin N × Fin 3 → ℝ)

/-- `forces.pot`, the sum over the replicas. -/
def Env.pot (e : Env n N H) (h : H) (q : Conf n N) : ℝ := ∑ b, e.pots h q b

/-- The current state of the system. -/
structure Sys (n N : ℕ) (H : Type) where
  h : H
  q : Conf n N

/-- The copies of ipi/engine/properties.py L984-L987 (`dbeads`, `dcell`, `fqref`) and of L3154-L3156 (the
cell of `Trajectories`). -/
structure Aux (n N : ℕ) (H : Type) where
  dq : Conf n N
  dh : H
  fqref : Option (Fin N × Fin 3 → ℝ)
  th : H

/-- ipi/engine/properties.py L984-L987, L3154-L3156 `bind` -/
def Aux.bind (s : Sys n N H) : Aux n N H := ⟨s.q, s.h, none, s.h⟩

/-- The requests that use the copies; `k` bounds the number of rounds of the automatic displacement. -/
inductive Req
  | displaced (u : Fin 3 → ℝ) (s : Sel)
  | scfep (alpha : ℝ) (s : Sel)
  | zetasc (alpha : ℝ) (s : Sel)
  | zetasc4 (alpha : ℝ) (s : Sel)
  | scaledcoords (fd : ℝ) (k : ℕ)
  | scScaledcoords (fd : ℝ) (k : ℕ)
  | scOp (fd : ℝ)
  | virialFq (ref unit : String)
  | trajZetasc (alpha : ℝ) (s : Sel)

/-- A printed value: numbers, of which some may be infinite or not numbers. -/
abbrev Val := Except Err (List (Option ℝ))

/-- The last of the selected atoms, whose displaced path stays in the copy. -/
def lastAtom (names : Fin N → String) (s : Sel) : Option (Fin N) :=
  ((s.atoms names).sort (· ≤ ·)).getLast?

/-- The displacement at which the loop of ipi/engine/properties.py L2083-L2127 ends. -/
noncomputable def yamaEnd (c : Fd) (auto : Bool) (beta : ℝ) (V V' : Conf n N → ℝ) (q : Conf n N) :
    ℕ → ℝ → ℝ
  | 0, db => db
  | k + 1, db => match yamaRound c auto beta V V' q db with
    | some _ => db
    | none => yamaEnd c auto beta V V' q k (db * 0.5)

/-- ipi/engine/properties.py L2208-L2315 `get_isotope_yama`: all seven numbers. -/
noncomputable def scfepVal (names : Fin N → String) (s : Sel) (term : Fin N → ℝ × ℝ) : Val := do
  let (law, lawke) ← smkee names s term
  let ni : ℝ := ((s.atoms names).card : ℝ)
  return [some ((∑ a ∈ s.atoms names, (term a).1) / ni),
    some ((∑ a ∈ s.atoms names, (term a).1 * (term a).1) / ni),
    some ((∑ a ∈ s.atoms names, (term a).2) / ni),
    some ((∑ a ∈ s.atoms names, (term a).2 * (term a).2) / ni),
    law.bind Prod.fst, lawke.bind Prod.fst, lawke.map Prod.snd]

/-- ipi/engine/properties.py L2024-L2025: only the even replicas of the copy are written. -/
noncomputable def scOpPath (eps : ℝ) (q dq : Conf n N) : Conf n N := fun x =>
  if (x.1 : ℕ) % 2 = 0 then q x + eps * (q x - qc q x.2.1 x.2.2) else dq x

/-- Sums over the even replicas, `[::2]`. -/
def evenSum (x : Fin (n + 1) → ℝ) : ℝ := ∑ b : Fin (n + 1), if (b : ℕ) % 2 = 0 then x b else 0

/-- ipi/engine/properties.py L2007-L2051 `get_scop_estimators` from the forces of the copy. -/
noncomputable def scOpVal (kB T eps : ℝ) (q f df : Conf n N) (pots : Fin (n + 1) → ℝ) : ℝ × ℝ :=
  let beta := 1 / (kB * T)
  let vir1 := (evenSum fun b => ∑ a, ∑ d, (q (b, a, d) - qc q a d) * f (b, a, d)) / ((n + 1 : ℕ) : ℝ) * 2
  let vir2 := (evenSum fun b => ∑ a, ∑ d, (q (b, a, d) - qc q a d) * ((df (b, a, d) - f (b, a, d)) / eps))
    / ((n + 1 : ℕ) : ℝ) * 2
  (1.5 * N / beta - 0.5 * vir1 + evenSum pots / evenSum fun _ : Fin (n + 1) => 1,
    1.5 * N / beta ^ 2 + 0.5 / beta * vir1 * 1.5 + 0.5 / beta * vir2 * 0.5)

/-- ipi/engine/properties.py L1317-L1321 -/
noncomputable def fqVirial (q f : Conf n N) (ref : Fin N × Fin 3 → ℝ) : ℝ :=
  (∑ b, ∑ a, ∑ d, f (b, a, d) * (q (b, a, d) - ref (a, d))) * 0.5 / ((n + 1 : ℕ) : ℝ)

/-- ipi/engine/properties.py L1305-L1316: the reference is read on the first request only; without a file
it is zero. -/
def fqRef (e : Env n N H) (a : Aux n N H) (ref unit : String) : Except Err (Fin N × Fin 3 → ℝ) :=
  match a.fqref with
  | some r => .ok r
  | none => if ref = "" then .ok fun _ => 0 else e.file ref unit

/-- One request: the value and the copies afterwards.  Which of the requests copy the current cell:
`get_linlin` L1951-L2005 no, `get_isotope_yama` L2208-L2315 no, `get_isotope_zetasc` L2500-L2570 no,
`get_isotope_zetasc_4th` L2693-L2804 no, `get_yama_estimators` L2076 yes, `get_scyama_estimators` L2156
yes, `get_scop_estimators` L2024 yes, `Trajectories.get_isotope_zetasc` L3272-L3327 no (its own copy). -/
noncomputable def request (e : Env n N H) (s : Sys n N H) (x : Aux n N H) : Req → Val × Aux n N H
  | .displaced u sel =>
      ((linlin e.kB e.T e.hbar e.m e.names sel u (e.pot s.h) (e.pot x.dh) s.q).map fun v => [some v],
        match sel.check N, lastAtom e.names sel with
        | .ok _, some a => { x with dq := opened s.q a u }
        | _, _ => x)
  | .scfep al sel =>
      (do
        sel.check N
        scfepVal e.names sel (scTerm e.kB e.T al (e.pot s.h) (e.pot x.dh) (e.f x.dh) s.q),
        match sel.check N, lastAtom e.names sel with
        | .ok _, some a => { x with dq := scaledAtom s.q a √(1 / al) }
        | _, _ => x)
  | .zetasc al sel =>
      ((zetasc e.kB e.T e.names al sel (e.pot s.h) (e.pot x.dh) s.q).map fun v =>
          [some v.1, some v.2.1, some v.2.2],
        match sel.check N with
        | .ok _ => { x with dq := s.q }
        | .error _ => x)
  | .zetasc4 al sel =>
      ((zetasc4 e.kB e.T e.omegan2 e.m e.names al sel (e.pots s.h) (e.pots x.dh) (e.f s.h) (e.f x.dh)
          s.q).map fun v => [some v.1, some v.2.1, some v.2.2],
        match sel.check N with
        | .ok _ => { x with dq := s.q }
        | .error _ => x)
  | .scaledcoords fd k =>
      let V := e.pot s.h
      (match yama e.fd e.kB e.T V V s.q fd k with
        | some v => .ok [some v.1, some v.2]
        | none => .ok [],
        { x with
          dh := s.h
          dq := scaled s.q √(1 - yamaEnd e.fd (fd < 0) (1 / (e.kB * e.T)) V V s.q k |fd|) })
  | .scScaledcoords fd k =>
      let V := fun q => ∑ b, e.pots s.h q b + ∑ b, potssc e.alpha e.omegan2 e.m (e.pots s.h q) (e.f s.h q) b
      (match scyama e.fd e.kB e.T e.alpha e.omegan2 e.m (e.pots s.h) (e.f s.h) s.q fd k with
        | some v => .ok [some v.1, some v.2]
        | none => .ok [],
        { x with
          dh := s.h
          dq := scaled s.q √(1 - yamaEnd e.fd (fd < 0) (1 / (e.kB * e.T)) V V s.q k |fd|) })
  | .scOp fd =>
      let dq := scOpPath |fd| s.q x.dq
      let v := scOpVal e.kB e.T |fd| s.q (e.f s.h s.q) (e.f s.h dq) (e.pots s.h s.q)
      (.ok [some v.1, some v.2], { x with dh := s.h, dq := dq })
  | .virialFq ref unit =>
      match fqRef e x ref unit with
      | .ok r => (.ok [some (fqVirial s.q (e.f s.h s.q) r)], { x with fqref := some r })
      | .error er => (.error er, x)
  | .trajZetasc al sel =>
      (do
        sel.check N
        (List.finRange N).mapM fun a =>
          (trajZetasc e.kB e.T e.names al sel (e.pot s.h) (e.pot x.th) s.q a).map some, x)

/-- A history: the state of the system at each request, and the request. -/
noncomputable def history (e : Env n N H) (x : Aux n N H) : List (Sys n N H × Req) → Aux n N H
  | [] => x
  | (s, r) :: l => history e (request e s x r).2 l

end

end Verif.Estim
