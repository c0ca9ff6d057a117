import Mathlib.Analysis.Real.Sqrt
import Verif.Phys.NormalModes

/-!
# Ring polymer contraction

Model of `mk_rs_matrix`, `mk_o_rs_matrix` and `nm_rescale`
(`/repo/ipi/utils/nmtransform.py` L72-139 and L230-328), with exact real numbers.
-/

namespace Verif.Contract

open Verif.Nm

/-- The entry `[i, j]` of the "reduction" matrix, L89-98: `[0, 0]` is one, for
`k = 1 … nb2 // 2` the entries `[k, k]` and `[nb2-k, nb1-k]` are one, and for even `nb2` the
entry `[nb2 // 2, nb1 - nb2 // 2]` is set back to zero. -/
noncomputable def red (n1 n2 i j : ℕ) : ℝ :=
  if n2 % 2 = 0 ∧ i = n2 / 2 ∧ j = n1 - n2 / 2 then 0
  else if i = 0 ∧ j = 0 then 1
  else if (List.range' 1 (n2 / 2)).any
      (fun k => (i == k && j == k) || (i == n2 - k && j == n1 - k)) then 1
  else 0

/-- The branch `nb1 > nb2` of `mk_rs_matrix` and of `mk_o_rs_matrix` (L85-101, L120-136), which
differ only in the normal mode matrix `C` they use. -/
noncomputable def rsDown (C : (n : ℕ) → Matrix (Fin n) (Fin n) ℝ) (n1 n2 : ℕ) :
    Matrix (Fin n2) (Fin n1) ℝ := fun a b =>
  (∑ i, (C n2).transpose a i * ∑ j : Fin n1, red n1 n2 i j * C n1 j b) * √((n2 : ℝ) / n1)

/-- `mk_rs_matrix` and `mk_o_rs_matrix` (L72-139); the recursive call of the last branch is to
the second branch. -/
noncomputable def mkRs (C : (n : ℕ) → Matrix (Fin n) (Fin n) ℝ) (n1 n2 : ℕ) :
    Matrix (Fin n2) (Fin n1) ℝ := fun a b =>
  if n1 = n2 then (if (a : ℕ) = b then 1 else 0)
  else if n2 < n1 then rsDown C n1 n2 a b
  else rsDown C n2 n1 b a * ((n2 : ℝ) / n1)

/-- `_b1tob2` and `_o_b1tob2` (L257, L260). -/
noncomputable def fwdMat (C : (n : ℕ) → Matrix (Fin n) (Fin n) ℝ) (n1 n2 : ℕ) :
    Matrix (Fin n2) (Fin n1) ℝ := mkRs C n1 n2

/-- `_b2tob1` and `_o_b2tob1` (L258, L261). -/
noncomputable def bwdMat (C : (n : ℕ) → Matrix (Fin n) (Fin n) ℝ) (n1 n2 : ℕ) :
    Matrix (Fin n1) (Fin n2) ℝ := fun a b => mkRs C n1 n2 b a * ((n1 : ℝ) / n2)

/-- `nm_rescale.b1tob2` for an array with two dimensions (L263-298). -/
noncomputable def b1tob2 {n1 m : ℕ} (n2 : ℕ) (op : List ℕ) (q : Arr n1 m) : Arr n2 m := fun a c =>
  if h : n1 = n2 then q (Fin.cast h.symm a) c
  else if (c : ℕ) / 3 ∈ op then apply (fwdMat mkONm n1 n2) (fun b => q b c) a
  else apply (fwdMat mkNm n1 n2) (fun b => q b c) a

/-- `nm_rescale.b2tob1` for an array with two dimensions (L300-328).  The `else` belongs to the
`for` loop over the open paths and is always carried out at its end, so that as soon as there
is one open path all the columns are overwritten with the open path transformation. -/
noncomputable def b2tob1 {n2 m : ℕ} (n1 : ℕ) (op : List ℕ) (q : Arr n2 m) : Arr n1 m := fun a c =>
  if h : n1 = n2 then q (Fin.cast h a) c
  else if op ≠ [] then apply (bwdMat mkONm n1 n2) (fun b => q b c) a
  else apply (bwdMat mkNm n1 n2) (fun b => q b c) a

/-- `nm_rescale.b2tob1` for one number per bead, such as the potential (L300-328: the shape
does not have two dimensions, so that the open paths do not matter). -/
noncomputable def b2tob1One {n2 : ℕ} (n1 : ℕ) (q : Fin n2 → ℝ) : Fin n1 → ℝ := fun a =>
  if h : n1 = n2 then q (Fin.cast h a)
  else apply (bwdMat mkNm n1 n2) q a

end Verif.Contract
