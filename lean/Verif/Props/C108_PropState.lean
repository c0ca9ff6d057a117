import Verif.Phys.PropState

/-!
# C108: printed values depend on the current state only
-/

namespace Verif.Estim

open Finset

section
variable {n N : ℕ} {H : Type} (e : Env n N H)

/-- Specification: the value of a request made to properties created for the current state. -/
noncomputable def fresh (s : Sys n N H) (r : Req) : Val := (request e s (Aux.bind s) r).1

/-- The value of a request after a history of requests to properties created for the state `s0`. -/
noncomputable def printed (s0 : Sys n N H) (l : List (Sys n N H × Req)) (s : Sys n N H) (r : Req) : Val :=
  (request e s (history e (Aux.bind s0) l) r).1

/-- Specification: the forces on the even replicas depend on the even replicas only, as they do without
contraction. -/
def LocalForces : Prop := ∀ h q q', (∀ x, (x.1 : ℕ) % 2 = 0 → q x = q' x) →
  ∀ x, (x.1 : ℕ) % 2 = 0 → e.f h q x = e.f h q' x

/-! ### What the copies hold -/

theorem request_th (s : Sys n N H) (x : Aux n N H) (r : Req) : (request e s x r).2.th = x.th := by
  cases r <;> simp only [request] <;> (try split) <;> rfl

theorem request_dh (s : Sys n N H) (x : Aux n N H) (r : Req) :
    (request e s x r).2.dh = x.dh ∨ (request e s x r).2.dh = s.h := by
  cases r <;> simp only [request] <;> (try split) <;> simp

theorem request_fqref (s : Sys n N H) (x : Aux n N H) (r : Req) (h : ∀ ref unit, r ≠ .virialFq ref unit) :
    (request e s x r).2.fqref = x.fqref := by
  cases r <;> simp only [request] <;> (try split) <;> first | rfl | exact absurd rfl (h _ _)

theorem history_th (l : List (Sys n N H × Req)) : ∀ x : Aux n N H, (history e x l).th = x.th := by
  induction l with
  | nil => exact fun x => rfl
  | cons p l ih => exact fun x => (ih _).trans (request_th e p.1 x p.2)

theorem history_dh {h : H} (l : List (Sys n N H × Req)) (hl : ∀ p ∈ l, p.1.h = h) :
    ∀ x : Aux n N H, x.dh = h → (history e x l).dh = h := by
  induction l with
  | nil => exact fun x hx => hx
  | cons p l ih =>
    intro x hx
    refine ih (fun p hp => hl p (List.mem_cons_of_mem _ hp)) _ ?_
    rcases request_dh e p.1 x p.2 with h1 | h1
    · exact h1.trans hx
    · exact h1.trans (hl p List.mem_cons_self)

/-- The reference is the one of the first request for it that did not fail. -/
theorem history_fqref {ref unit : String} (l : List (Sys n N H × Req))
    (hl : ∀ p ∈ l, ∀ ref' unit', p.2 = .virialFq ref' unit' → ref' = ref ∧ unit' = unit) :
    ∀ x : Aux n N H, fqRef e (history e x l) ref unit = fqRef e x ref unit := by
  induction l with
  | nil => exact fun x => rfl
  | cons p l ih =>
    intro x
    have ih := ih (fun p hp => hl p (List.mem_cons_of_mem _ hp))
    refine (ih _).trans ?_
    by_cases h : ∀ ref unit, p.2 ≠ .virialFq ref unit
    · unfold fqRef
      rw [request_fqref e p.1 x p.2 h]
    · push Not at h
      obtain ⟨ref', unit', h⟩ := h
      obtain ⟨rfl, rfl⟩ := hl p List.mem_cons_self _ _ h
      rw [h]
      simp only [request]
      cases hr : fqRef e x ref' unit' with
      | ok r => simp [fqRef]
      | error er => exact hr

/-! ### Values that follow the system -/

/-- The scaled-coordinates estimators depend on the current state only, whatever was printed before and
however the cell has changed. -/
theorem scaledcoords_current (s0 : Sys n N H) (l : List (Sys n N H × Req)) (s : Sys n N H) (fd : ℝ) (k : ℕ) :
    printed e s0 l s (.scaledcoords fd k) = fresh e s (.scaledcoords fd k) ∧
    printed e s0 l s (.scScaledcoords fd k) = fresh e s (.scScaledcoords fd k) := ⟨rfl, rfl⟩

/-- The operator estimator does, too, when the forces are not contracted. -/
theorem scOp_current (he : LocalForces e) (s0 : Sys n N H) (l : List (Sys n N H × Req)) (s : Sys n N H)
    (fd : ℝ) : printed e s0 l s (.scOp fd) = fresh e s (.scOp fd) := by
  have key : ∀ dq dq' : Conf n N,
      scOpVal e.kB e.T |fd| s.q (e.f s.h s.q) (e.f s.h (scOpPath |fd| s.q dq)) (e.pots s.h s.q)
      = scOpVal e.kB e.T |fd| s.q (e.f s.h s.q) (e.f s.h (scOpPath |fd| s.q dq')) (e.pots s.h s.q) := by
    intro dq dq'
    have h := he s.h (scOpPath |fd| s.q dq) (scOpPath |fd| s.q dq') fun x hx => by
      unfold scOpPath
      rw [if_pos hx, if_pos hx]
    unfold scOpVal evenSum
    refine Prod.ext rfl ?_
    dsimp only
    congr 4
    refine congrArg (· / ((n + 1 : ℕ) : ℝ)) (Finset.sum_congr rfl fun b _ => ?_)
    split_ifs with hb
    · refine Finset.sum_congr rfl fun a _ => Finset.sum_congr rfl fun d _ => ?_
      rw [h (b, a, d) hb]
    · rfl
  unfold printed fresh
  simp only [request]
  rw [key]

/-- **Values depend on the current state only while the cell does not change**, whatever was printed
before and however the positions have changed. -/
theorem current_partial (s0 : Sys n N H) (l : List (Sys n N H × Req)) (s : Sys n N H)
    (h0 : s0.h = s.h) (hl : ∀ p ∈ l, p.1.h = s.h) (r : Req) (hop : (∃ fd, r = .scOp fd) → LocalForces e)
    (hfq : ∀ ref unit, r ≠ .virialFq ref unit) : printed e s0 l s r = fresh e s r := by
  have h1 := history_dh e l hl (Aux.bind s0) h0
  have h2 := (history_th e l (Aux.bind s0)).trans h0
  cases r with
  | virialFq ref unit => exact absurd rfl (hfq ref unit)
  | scOp fd => exact scOp_current e (hop ⟨fd, rfl⟩) s0 l s fd
  | _ =>
    unfold printed fresh
    simp only [request, h1, h2]
    try rfl

/-- The virial with a reference depends on the current state only if it is requested with one reference
throughout. -/
theorem virialFq_partial (s0 : Sys n N H) (l : List (Sys n N H × Req)) (s : Sys n N H) (ref unit : String)
    (hl : ∀ p ∈ l, ∀ ref' unit', p.2 = .virialFq ref' unit' → ref' = ref ∧ unit' = unit) :
    printed e s0 l s (.virialFq ref unit) = fresh e s (.virialFq ref unit) := by
  have h := history_fqref e l hl (Aux.bind s0)
  have h' : fqRef e (Aux.bind s0) ref unit = fqRef e (Aux.bind s) ref unit := rfl
  unfold printed fresh
  simp only [request]
  rw [h, h']
  cases fqRef e (Aux.bind s) ref unit <;> rfl

/-! ### Values that do not -/

end

theorem opened_zero {n N : ℕ} (q : Conf n N) (a : Fin N) : opened q a 0 = q := by
  funext x
  simp [opened]

theorem scaledAtom_one {n N : ℕ} (q : Conf n N) (a : Fin N) : scaledAtom q a (1 / √1) = q := by
  funext x
  simp [scaledAtom]

/-- A trap whose stiffness is the cell. -/
noncomputable def cellTrap (n : ℕ) : Env n 1 ℝ where
  pots h q b := h * ∑ d, q (b, 0, d) ^ 2
  f h q x := -2 * h * q x
  m _ := 1
  names _ := "H"
  kB := 1
  T := 1
  hbar := 1
  omegan2 := 1
  alpha := 0
  fd := {}
  file r _ := if r = "ref" then .ok fun _ => 1 else .error .value

theorem cellTrap_pot (h : ℝ) : (cellTrap 0).pot h (fun _ => 1) = 3 * h := by
  simp [Env.pot, cellTrap]
  ring

theorem atoms_one (names : Fin 1 → String) : Sel.atoms names .all = {0} := by
  ext i
  simp [Sel.atoms, Sel.takes, Subsingleton.elim i 0]

/-- The displaced path estimator for the opening vector zero is one.  After a change of the cell another
number is printed, unless the scaled-coordinates estimator has been printed before. -/
theorem displaced_stale : ∃ s0 s : Sys 0 1 ℝ,
    fresh (cellTrap 0) s (.displaced 0 .all) = .ok [some 1] ∧
    (∃ v, printed (cellTrap 0) s0 [] s (.displaced 0 .all) = .ok [some v] ∧ v ≠ 1) ∧
    ∀ fd k, printed (cellTrap 0) s0 [(s, .scaledcoords fd k)] s (.displaced 0 .all) = .ok [some 1] := by
  have hf : fresh (cellTrap 0) ⟨2, fun _ => 1⟩ (.displaced 0 .all) = .ok [some 1] := by
    unfold fresh
    simp only [request, linlin, Sel.check, atoms_one, Aux.bind, opened_zero, cellTrap_pot]
    simp
    rfl
  refine ⟨⟨1, fun _ => 1⟩, ⟨2, fun _ => 1⟩, hf, ⟨Real.exp 3, ?_, ?_⟩, fun fd k => hf⟩
  · unfold printed
    simp only [request, history, linlin, Sel.check, atoms_one, Aux.bind, opened_zero, cellTrap_pot]
    simp [cellTrap]
    norm_num
    rfl
  · exact (Real.one_lt_exp_iff.2 (by norm_num)).ne'

/-- The isotope estimators for the mass ratio one are zero, zero and one, but not after a change of the
cell; nor are those written to trajectories. -/
theorem isotope_stale : ∃ s0 s : Sys 0 1 ℝ,
    fresh (cellTrap 0) s (.zetasc 1 .all) = .ok [some 0, some 0, some 1] ∧
    printed (cellTrap 0) s0 [] s (.zetasc 1 .all) = .ok [some (-3), some 9, some (Real.exp 3)] ∧
    fresh (cellTrap 0) s (.trajZetasc 1 .all) = .ok [some 1] ∧
    printed (cellTrap 0) s0 [] s (.trajZetasc 1 .all) = .ok [some (Real.exp 3)] := by
  refine ⟨⟨1, fun _ => 1⟩, ⟨2, fun _ => 1⟩, ?_, ?_, ?_, ?_⟩
  · unfold fresh
    simp only [request, zetasc, Sel.check, atoms_one, Aux.bind, scaledAtom_one, cellTrap_pot]
    simp
    rfl
  · unfold printed
    simp only [request, history, zetasc, Sel.check, atoms_one, Aux.bind, scaledAtom_one, cellTrap_pot]
    simp [cellTrap]
    norm_num
    rfl
  · unfold fresh
    simp only [request, trajZetasc, Sel.check, Aux.bind, scaledAtom_one, cellTrap_pot]
    simp
    rfl
  · unfold printed
    simp only [request, history, trajZetasc, Sel.check, Aux.bind, scaledAtom_one, cellTrap_pot]
    simp [cellTrap, Sel.takes]
    norm_num
    rfl

/-- The virial with a reference file is computed without it if one without a file was requested before. -/
theorem virialFq_stale : ∃ s : Sys 0 1 ℝ,
    fresh (cellTrap 0) s (.virialFq "ref" "") = .ok [some 0] ∧
    printed (cellTrap 0) s [(s, .virialFq "" "")] s (.virialFq "ref" "") = .ok [some (-3)] := by
  refine ⟨⟨1, fun _ => 1⟩, ?_, ?_⟩
  · unfold fresh
    simp [request, fqRef, Aux.bind, cellTrap, fqVirial]
  · unfold printed
    simp [request, history, fqRef, Aux.bind, cellTrap, fqVirial]
    norm_num

/-- A trap that acts on the centroid, as a component contracted to one replica does. -/
noncomputable def centroidTrap : Env 1 1 ℝ where
  pots h q _ := h * ∑ d, qc q 0 d ^ 2
  f h q x := -2 * h * qc q x.2.1 x.2.2
  m _ := 1
  names _ := "H"
  kB := 1
  T := 1
  hbar := 1
  omegan2 := 1
  alpha := 0
  fd := {}
  file _ _ := .error .value

/-- With contraction the operator estimator depends on what was printed before. -/
theorem scOp_stale : ∃ s : Sys 1 1 ℝ,
    printed centroidTrap s [] s (.scOp 1) = fresh centroidTrap s (.scOp 1) ∧
    printed centroidTrap s [(s, .displaced 4 .all)] s (.scOp 1) ≠ fresh centroidTrap s (.scOp 1) := by
  refine ⟨⟨1, fun x => if x.1 = 0 then 1 else -1⟩, rfl, ?_⟩
  have hl : lastAtom centroidTrap.names .all = some 0 := by
    simp [lastAtom, atoms_one]
  unfold printed fresh
  simp only [request, history, hl, Sel.check, Aux.bind]
  simp [scOpVal, scOpPath, evenSum, centroidTrap, Fin.sum_univ_two, qc, opened, opening]
  norm_num

/-- The hypotheses of the positive statements can be met: a run with a displaced path printed twice. -/
example (s s' : Sys 3 1 ℝ) (h : s'.h = s.h) : printed (cellTrap 3) s' [(s', .displaced 4 .all), (s, .scOp 1)] s
    (.scOp 1) = fresh (cellTrap 3) s (.scOp 1) :=
  current_partial _ s' _ s h (by simp [h]) _ (fun _ h q q' hq x hx => by simp [cellTrap, hq x hx]) (by simp)

end Verif.Estim
