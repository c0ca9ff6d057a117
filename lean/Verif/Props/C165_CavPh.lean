import Verif.FF.CavPh
import Verif.Props.C84_Pes

/-!
# C165: molecules in a cavity feel one cavity, however many drivers are attached
-/

namespace Verif.CavPh

open Verif.Pes Finset

variable {N : ℕ}

/-- A driver that gives what it should: all atoms active, forces that belong to its energy and, where a dipole surface is asked for, a dipole
of three components with its derivatives; otherwise one charge per atom. -/
structure Sound (k : Client N) : Prop where
  active : ∀ a, k.set.act a = true
  forces : ∀ q, IsForce k.pot (k.force q) q
  charges : k.set.surface = false → k.set.charges.length = N
  surface : k.set.surface = true → ∃ (dip : Cfg N → Fin 3 → ℝ) (der : Cfg N → List ℝ),
    (∀ q, k.extras q = ⟨some [dip q 0, dip q 1, dip q 2], some (der q)⟩ ∧ (der q).length = 9 * N) ∧
    ∀ q d, IsForce (fun q => dip q d) (fun x => -derOf (der q) x.1 d x.2) q

/-- The dipole a driver stands for. -/
noncomputable def dipoleFn (k : Client N) (q : Cfg N) (d : Fin 3) : ℝ :=
  if k.set.surface then (((k.extras q).dipole).getD []).getD d 0 else dipole (charge k.set.charges) q d

/-- The energy of one driver: its own and, if it evaluates the photons, that of the cavity. -/
noncomputable def energyOf (c : Cavity) (k : Client N) (r : (Fin N × Fin 3) ⊕ Fin c.dim → ℝ) : ℝ :=
  (if k.set.evaluate then c.total k.pot (dipoleFn k) r else k.pot (atomsOf r)) - 2 * k.set.offset

theorem total_eq (c : Cavity) (mol : Cfg N → ℝ) (dip : Cfg N → Fin 3 → ℝ) (r : (Fin N × Fin 3) ⊕ Fin c.dim → ℝ) :
    c.total mol dip r = mol (atomsOf r) + c.energy (dip (atomsOf r) 0) (dip (atomsOf r) 1) (photonsOf r) := rfl

/-- A sound driver always returns, with the energy above and forces that belong to it. -/
theorem run_sound (c : Cavity) (k : Client N) (hk : Sound k) (r : (Fin N × Fin 3) ⊕ Fin c.dim → ℝ) :
    ∃ f, k.run c r = .done (energyOf c k r) f ∧ IsForce (energyOf c k) f r := by
  have hmask : masked k.set.act (k.force (atomsOf r)) = k.force (atomsOf r) := by
    funext x; unfold masked; rw [hk.active, if_pos rfl]
  have hsub : ∀ {ι : Type} [Fintype ι] {V : (ι → ℝ) → ℝ} {f q : ι → ℝ} (z : ℝ), IsForce V f q → IsForce (fun q => V q - z) f q := by
    intro ι _ V f q z h γ v h0 hv
    exact (h γ v h0 hv).sub_const z
  cases he : k.set.evaluate with
  | false =>
    refine ⟨fun x => Sum.casesOn x (fun x => k.force (atomsOf r) x) (fun _ => 0), ?_, ?_⟩
    · unfold Client.run queue
      rw [he, hmask]
      simp only [Bool.false_eq_true, if_false, energyOf, he, Res.done.injEq]
      refine ⟨by ring, ?_⟩
      funext x
      cases x <;> simp
    · have : energyOf c k = fun r => (fun r => k.pot (atomsOf r)) r - 2 * k.set.offset := by
        funext r; simp [energyOf, he]
      rw [this]
      apply hsub
      intro γ v h0 hv
      have h := hk.forces (atomsOf r) (fun t x => γ t (.inl x)) (fun x => v (.inl x)) (by funext x; simp only [h0]; rfl) (fun x => hv _)
      refine h.congr_deriv ?_
      rw [Fintype.sum_sum_type]
      simp
  | true =>
    have hE : energyOf c k = fun r => c.total k.pot (dipoleFn k) r - 2 * k.set.offset := by
      funext r; simp [energyOf, he]
    cases hs : k.set.surface with
    | false =>
      have hd : dipoleFn k = dipole (charge k.set.charges) := by
        funext q d; simp [dipoleFn, hs]
      refine ⟨c.forces (k.force (atomsOf r)) (c.nucForce (charge k.set.charges) (dipole (charge k.set.charges) (atomsOf r) 0) (dipole (charge k.set.charges) (atomsOf r) 1) (photonsOf r)) (dipole (charge k.set.charges) (atomsOf r) 0) (dipole (charge k.set.charges) (atomsOf r) 1) (photonsOf r), ?_, ?_⟩
      · unfold Client.run queue dipoleOf
        rw [he, hmask, hs, hk.charges hs, hE, hd]
        simp only [if_true, Bool.false_eq_true, if_false, ne_eq, not_true_eq_false, Res.done.injEq]
        refine ⟨?_, ?_⟩
        · rw [total_eq]; simp only [Dip.x, Dip.y]; ring
        · funext x
          cases x <;> rfl
      · rw [hE, hd]
        exact hsub _ (cavity_force c k.pot (charge k.set.charges) r (k.force (atomsOf r)) (hk.forces _))
    | true =>
      obtain ⟨dip, der, h1, h2⟩ := hk.surface hs
      have hd : dipoleFn k = dip := by
        funext q d
        simp only [dipoleFn, hs, if_true, (h1 q).1, Option.getD_some]
        fin_cases d <;> rfl
      refine ⟨c.forces (k.force (atomsOf r)) (c.nucForceDer (derOf (der (atomsOf r))) (dip (atomsOf r) 0) (dip (atomsOf r) 1) (photonsOf r)) (dip (atomsOf r) 0) (dip (atomsOf r) 1) (photonsOf r), ?_, ?_⟩
      · unfold Client.run queue dipoleOf
        rw [he, hmask, hs, hE, hd, (h1 (atomsOf r)).1]
        simp only [if_true, List.length_cons, List.length_nil, (h1 (atomsOf r)).2, Res.done.injEq]
        refine ⟨?_, ?_⟩
        · rw [total_eq]; simp only [Dip.x, Dip.y, List.getD_cons_zero, List.getD_cons_succ]; ring
        · funext x
          cases x <;> rfl
      · rw [hE, hd]
        exact hsub _ (cavity_force_der c k.pot dip r (k.force (atomsOf r)) (derOf (der (atomsOf r))) (hk.forces _) fun d => h2 _ d)

/-- **C165 (consistency).** However many drivers are attached and whichever of them evaluate the photons, the simulation gets forces that
belong to the energy it gets. -/
theorem forces_belong (c : Cavity) (ks : List (Client N)) (hk : ∀ k ∈ ks, Sound k) (r : (Fin N × Fin 3) ⊕ Fin c.dim → ℝ) :
    ∃ f, total c ks r = some ((ks.map fun k => energyOf c k r).sum, f) ∧ IsForce (fun r => (ks.map fun k => energyOf c k r).sum) f r := by
  induction ks with
  | nil =>
    refine ⟨0, rfl, ?_⟩
    intro γ v _ _
    simpa using hasDerivAt_const (0 : ℝ) (0 : ℝ)
  | cons k ks ih =>
    obtain ⟨f', h1, h2⟩ := ih fun x hx => hk x (List.mem_cons_of_mem _ hx)
    obtain ⟨f, h3, h4⟩ := run_sound c k (hk k List.mem_cons_self) r
    refine ⟨f + f', by rw [total, h3, h1]; simp, ?_⟩
    intro γ v h0 hv
    have := (h4 γ v h0 hv).add (h2 γ v h0 hv)
    simp only [List.map_cons, List.sum_cons]
    refine this.congr_deriv ?_
    rw [← neg_add, ← sum_add_distrib]
    congr 1
    exact sum_congr rfl fun x _ => by simp only [Pi.add_apply]; ring

/-- **C165 (one cavity).** When exactly one driver evaluates the photons, the energy is that of one cavity coupled to the dipole of this
driver, on top of the energies of all drivers (and offsets, each subtracted twice: C18). -/
theorem one_cavity (c : Cavity) (as bs : List (Client N)) (k : Client N) (ha : ∀ x ∈ as ++ bs, x.set.evaluate = false) (hk : k.set.evaluate = true)
    (r : (Fin N × Fin 3) ⊕ Fin c.dim → ℝ) :
    ((as ++ k :: bs).map fun k => energyOf c k r).sum =
      c.energy (dipoleFn k (atomsOf r) 0) (dipoleFn k (atomsOf r) 1) (photonsOf r) + ((as ++ k :: bs).map fun k => k.pot (atomsOf r)).sum
        - 2 * ((as ++ k :: bs).map fun k => k.set.offset).sum := by
  have hl : ∀ l : List (Client N), (∀ x ∈ l, x.set.evaluate = false) → (l.map fun k => energyOf c k r).sum =
      (l.map fun k => k.pot (atomsOf r)).sum - 2 * (l.map fun k => k.set.offset).sum := by
    intro l hl
    induction l with
    | nil => simp
    | cons x l ih =>
      simp only [List.map_cons, List.sum_cons]
      rw [ih fun y hy => hl y (List.mem_cons_of_mem _ hy)]
      have : energyOf c x r = x.pot (atomsOf r) - 2 * x.set.offset := by simp [energyOf, hl x List.mem_cons_self]
      rw [this]; ring
  simp only [List.map_append, List.map_cons, List.sum_append, List.sum_cons]
  rw [hl as fun x hx => ha x (List.mem_append_left _ hx), hl bs fun x hx => ha x (List.mem_append_right _ hx)]
  have : energyOf c k r = k.pot (atomsOf r) + c.energy (dipoleFn k (atomsOf r) 0) (dipoleFn k (atomsOf r) 1) (photonsOf r) - 2 * k.set.offset := by
    simp [energyOf, hk, Cavity.total]; rfl
  rw [this]; ring

/-- Every further driver that evaluates the photons adds a whole cavity: nothing checks that there is only one. -/
theorem counted_twice (c : Cavity) (k : Client N) (hk : k.set.evaluate = true) (hp : ∀ q, k.pot q = 0) (ho : k.set.offset = 0)
    (r : (Fin N × Fin 3) ⊕ Fin c.dim → ℝ) :
    ([k, k].map fun k => energyOf c k r).sum = 2 * c.energy (dipoleFn k (atomsOf r) 0) (dipoleFn k (atomsOf r) 1) (photonsOf r) := by
  simp [energyOf, hk, Cavity.total, hp, ho]
  unfold photonsOf atomsOf
  ring

/-! ### what does not hold -/

/-- **False of the code: forces on inactive atoms are zero.**  The forces of the cavity are added to all atoms, also to those that are not
in the active list: what such an atom gets is the force of the cavity alone. -/
theorem inactive_forces (c : Cavity) (s : Setup N) (q : Cfg N) (ph : Fin c.dim → ℝ) (u : ℝ) (f : Cfg N) (ex : Extras) (he : s.evaluate = true)
    (hs : s.surface = false) (hz : s.charges.length = N) (a : Fin N) (ha : s.act a = false) :
    ∃ u' f', queue c s q ph u f ex = .done u' f' ∧
      f' (.inl (a, 0)) = -((c.E0 * ph c.ix + c.E0 ^ 2 / c.omega ^ 2 * dipole (charge s.charges) q 0) * charge s.charges a) := by
  refine ⟨_, _, by unfold queue dipoleOf; simp only [he, hs, hz, if_true, Bool.false_eq_true, if_false, ne_eq, not_true_eq_false]; rfl, ?_⟩
  simp only [masked, ha, Dip.nuc, Cavity.nucForce, Cavity.coeff, Bool.false_eq_true, if_false, zero_add]

/-- Without an active list nothing but the cavity acts on the photons, whatever the driver returns. -/
theorem photons_only_cavity (c : Cavity) (s : Setup N) (q : Cfg N) (ph : Fin c.dim → ℝ) (u u' : ℝ) (f f' : Cfg N) (ex : Extras)
    (g g' : (Fin N × Fin 3) ⊕ Fin c.dim → ℝ) (w w' : ℝ) (h : queue c s q ph u f ex = .done w g) (h' : queue c s q ph u' f' ex = .done w' g') (i : Fin c.dim) :
    g (.inr i) = g' (.inr i) ∧ w - u = w' - u' := by
  unfold queue at h h'
  split at h
  · rename_i he
    rw [if_pos he] at h'
    split at h
    · cases h
    · cases h
    · rename_i d hd
      rw [hd] at h'
      simp only [Res.done.injEq] at h h'
      obtain ⟨rfl, rfl⟩ := h
      obtain ⟨rfl, rfl⟩ := h'
      exact ⟨rfl, by ring⟩
  · rename_i he
    rw [if_neg he] at h'
    simp only [Res.done.injEq] at h h'
    obtain ⟨rfl, rfl⟩ := h
    obtain ⟨rfl, rfl⟩ := h'
    exact ⟨rfl, by ring⟩

/-- **False of the code: a driver without a dipole is reported.**  With a dipole surface and a driver that does not send a dipole the
message is never written: the entry is read before its presence is acted upon, which ends in a `KeyError`. -/
theorem missing_dipole (c : Cavity) (s : Setup N) (q : Cfg N) (ph : Fin c.dim → ℝ) (u : ℝ) (f : Cfg N) (der : Option (List ℝ)) (he : s.evaluate = true)
    (hs : s.surface = true) : queue c s q ph u f ⟨none, der⟩ = .keyError := by
  unfold queue dipoleOf
  simp [he, hs]

/-- A dipole or derivatives of the wrong size are reported. -/
theorem wrong_size (c : Cavity) (s : Setup N) (q : Cfg N) (ph : Fin c.dim → ℝ) (u : ℝ) (f : Cfg N) (d l : List ℝ) (he : s.evaluate = true)
    (hs : s.surface = true) (h : d.length ≠ 3 ∨ l.length ≠ 9 * N) : queue c s q ph u f ⟨some d, some l⟩ = .exit := by
  unfold queue dipoleOf
  by_cases h3 : d.length = 3
  · have := h.resolve_left (by simpa using h3)
    simp [he, hs, h3, this]
  · simp [he, hs, h3]

/-! ### the hypotheses can be met -/

/-- A driver without energy, one atom with a charge. -/
noncomputable def demo (e : Bool) : Client 1 := ⟨⟨e, false, [1], 0, fun _ => true⟩, fun _ => 0, fun _ => 0, fun _ => ⟨none, none⟩⟩

theorem demo_sound (e : Bool) : Sound (demo e) where
  active := fun _ => rfl
  forces := fun q γ v _ _ => by simpa [demo] using hasDerivAt_const (0 : ℝ) (0 : ℝ)
  charges := fun _ => rfl
  surface := fun h => by simp [demo] at h

example : ∀ k ∈ [demo true, demo false], Sound k := by
  intro k hk
  simp only [List.mem_cons, List.not_mem_nil, or_false] at hk
  rcases hk with rfl | rfl
  · exact demo_sound true
  · exact demo_sound false

/-- The derivatives are in the order atom, component of the dipole, direction. -/
theorem derOf_order (D : ℕ → ℕ → ℕ → ℝ) (a : Fin N) (k d : Fin 3) :
    derOf (List.ofFn fun i : Fin (9 * N) => D (i / 9) (i / 3 % 3) (i % 3)) a k d = D a k d := by
  have h : 9 * (a : ℕ) + 3 * k + d < 9 * N := by omega
  unfold derOf
  rw [List.getD_eq_getElem?_getD, List.getElem?_ofFn, dif_pos h]
  simp only [Option.getD_some]
  rw [show (9 * (a : ℕ) + 3 * k + d) / 9 = a by omega, show (9 * (a : ℕ) + 3 * k + d) / 3 % 3 = k by omega,
    show (9 * (a : ℕ) + 3 * k + d) % 3 = d by omega]

end Verif.CavPh
