import Verif.Run.Kmc
import Mathlib.Data.Finset.Card
import Mathlib.Order.Interval.Finset.Nat
import Mathlib.Tactic.FieldSimp
import Mathlib.Tactic.Linarith
import Mathlib.Tactic.LinearCombination
import Mathlib.Tactic.Positivity
import Mathlib.Tactic.IntervalCases

/-
C141: kinetic Monte Carlo keeps the atoms, chooses events with the right probabilities and obeys detailed balance.
-/
namespace Verif.Kmc

/-- The three descriptions of the occupation agree. -/
structure Inv (p : Par) (s : St) : Prop where
  lt : ∀ i < p.nsites, s.idx i < p.nsites
  rlt : ∀ j < p.nsites, s.ridx j < p.nsites
  ri : ∀ i < p.nsites, s.ridx (s.idx i) = i
  ir : ∀ j < p.nsites, s.idx (s.ridx j) = j
  st : ∀ i < p.nsites, s.state (s.idx i) = names p i

/-- Numbers of atoms that fit. -/
structure Fits (p : Par) : Prop where
  vac : p.nvac ≤ p.nsites
  sol : p.nsi + p.nmg ≤ p.nsites - p.nvac

/-! ### Index arrays -/

theorem scatter_at {α : Type} (base : ℕ → α) (idx : ℕ → ℕ) (v : ℕ → α) (n : ℕ) (h : ∀ i < n, ∀ j < n, idx i = idx j → i = j) (i : ℕ) (hi : i < n) :
    scatter base idx v n (idx i) = v i := by
  induction n with
  | zero => exact absurd hi (Nat.not_lt_zero i)
  | succ n ih =>
    unfold scatter
    by_cases e : i = n
    · subst e; simp
    · have hne : idx i ≠ idx n := fun h' => e (h i hi n (Nat.lt_succ_self n) h')
      rw [Function.update_of_ne hne]
      exact ih (fun a ha b hb => h a (by omega) b (by omega)) (by omega)

/-- An index array that is a permutation of the sites gives a consistent occupation. -/
theorem init_inv (p : Par) (idx : ℕ → ℕ) (hlt : ∀ i < p.nsites, idx i < p.nsites)
    (hinj : ∀ i < p.nsites, ∀ j < p.nsites, idx i = idx j → i = j) : Inv p (init p idx) := by
  have hri : ∀ i < p.nsites, (init p idx).ridx (idx i) = i := fun i hi =>
    scatter_at _ idx (fun i => i) p.nsites hinj i hi
  have hsurj : ∀ j < p.nsites, ∃ i < p.nsites, idx i = j := by
    intro j hj
    have := Finset.surjOn_of_injOn_of_card_le (s := Finset.range p.nsites) (t := Finset.range p.nsites) idx
      (fun i hi => by simpa using hlt i (by simpa using hi))
      (fun a ha b hb hab => hinj a (by simpa using ha) b (by simpa using hb) hab) (le_refl _)
    obtain ⟨i, hi, hij⟩ := this (by simpa using hj : j ∈ (Finset.range p.nsites : Set ℕ))
    exact ⟨i, by simpa using hi, hij⟩
  refine ⟨hlt, ?_, hri, ?_, ?_⟩
  · intro j hj; obtain ⟨i, hi, rfl⟩ := hsurj j hj; rw [hri i hi]; exact hi
  · intro j hj; obtain ⟨i, hi, rfl⟩ := hsurj j hj; rw [hri i hi]; rfl
  · intro i hi; exact scatter_at _ idx (names p) p.nsites hinj i hi

/-- The exchange of two indices. -/
def tau (a b x : ℕ) : ℕ := if x = a then b else if x = b then a else x

theorem swap_tau {α : Type} (f : ℕ → α) (a b : ℕ) : swap f a b = fun x => f (tau a b x) := by
  funext x
  unfold swap tau
  by_cases hb : x = b
  · subst hb
    rw [Function.update_self]
    by_cases ha : x = a
    · subst ha; simp
    · rw [if_neg ha, if_pos rfl]
  · rw [Function.update_of_ne hb]
    by_cases ha : x = a
    · subst ha; simp
    · rw [Function.update_of_ne ha, if_neg ha, if_neg hb]

theorem tau_tau (a b x : ℕ) : tau a b (tau a b x) = x := by
  unfold tau; split_ifs <;> simp_all

theorem tau_lt (n a b x : ℕ) (ha : a < n) (hb : b < n) (hx : x < n) : tau a b x < n := by
  unfold tau; split_ifs <;> assumption

theorem swap_swap {α : Type} (f : ℕ → α) (a b : ℕ) : swap (swap f a b) b a = f := by
  rw [swap_tau, swap_tau]
  funext x
  have : tau b a x = tau a b x := by
    unfold tau; split_ifs <;> simp_all
  show f (tau a b (tau b a x)) = f x
  rw [this, tau_tau]

theorem tau_idx (p : Par) (s : St) (h : Inv p s) (a b : ℕ) (ha : a < p.nsites) (hb : b < p.nsites) (x : ℕ) (hx : x < p.nsites) :
    tau a b (s.idx x) = s.idx (tau (s.ridx a) (s.ridx b) x) := by
  have e1 : s.idx x = a ↔ x = s.ridx a := ⟨fun e => by rw [← e, h.ri x hx], fun e => by rw [e, h.ir a ha]⟩
  have e2 : s.idx x = b ↔ x = s.ridx b := ⟨fun e => by rw [← e, h.ri x hx], fun e => by rw [e, h.ir b hb]⟩
  unfold tau
  by_cases h1 : s.idx x = a
  · rw [if_pos h1, if_pos (e1.1 h1), h.ir b hb]
  · rw [if_neg h1, if_neg (fun e => h1 (e1.2 e))]
    by_cases h2 : s.idx x = b
    · rw [if_pos h2, if_pos (e2.1 h2), h.ir a ha]
    · rw [if_neg h2, if_neg (fun e => h2 (e2.2 e))]

/-- Every exchange of two sites keeps the descriptions consistent. -/
theorem apply_inv (p : Par) (s : St) (h : Inv p s) (a b : ℕ) (ha : a < p.nsites) (hb : b < p.nsites) : Inv p (apply s (a, b)) := by
  have hra := h.rlt a ha
  have hrb := h.rlt b hb
  unfold apply
  simp only [swap_tau]
  refine ⟨?_, ?_, ?_, ?_, ?_⟩
  · intro i hi; exact h.lt _ (tau_lt _ _ _ _ hra hrb hi)
  · intro j hj; exact h.rlt _ (tau_lt _ _ _ _ ha hb hj)
  · intro i hi
    dsimp only
    rw [tau_idx p s h a b ha hb _ (tau_lt _ _ _ _ hra hrb hi), tau_tau, h.ri i hi]
  · intro j hj
    dsimp only
    rw [← tau_idx p s h a b ha hb _ (h.rlt _ (tau_lt _ _ _ _ ha hb hj)), h.ir _ (tau_lt _ _ _ _ ha hb hj), tau_tau]
  · intro i hi
    dsimp only
    rw [tau_idx p s h a b ha hb _ (tau_lt _ _ _ _ hra hrb hi), tau_tau, h.st i hi]

/-! ### Events -/

theorem names_vac (p : Par) (hp : Fits p) (i : ℕ) (h1 : p.natoms ≤ i) : names p i = .V := by
  have := hp.sol
  unfold Par.natoms at h1
  unfold names Par.natoms
  rw [if_neg (by omega), if_neg (by omega), if_neg (by omega)]

theorem names_atom (p : Par) (i : ℕ) (h : names p i = .V) : p.natoms ≤ i := by
  unfold names at h
  split_ifs at h with h1 h2 h3
  omega

/-- The vacancies are where they should be: the loop never stops, and its events are the pairs of a site of a vacancy and a neighbour that
is none. -/
theorem events_ok (p : Par) (hp : Fits p) (neigh : ℕ → List ℕ) (s : St) (h : Inv p s) :
    ∃ l, events p neigh s p.nvac = .ok l ∧
      ∀ a b, (a, b) ∈ l ↔ (∃ k < p.nvac, a = s.idx (p.natoms + k)) ∧ b ∈ neigh a ∧ s.state b ≠ .V := by
  have key : ∀ m ≤ p.nvac, ∃ l, events p neigh s m = .ok l ∧
      ∀ a b, (a, b) ∈ l ↔ (∃ k < m, a = s.idx (p.natoms + k)) ∧ b ∈ neigh a ∧ s.state b ≠ .V := by
    intro m
    induction m with
    | zero => intro _; exact ⟨[], rfl, fun a b => by simp⟩
    | succ m ih =>
      intro hm
      obtain ⟨l, h1, h2⟩ := ih (by omega)
      have hv : s.state (s.idx (p.natoms + m)) = .V := by
        have := hp.vac
        rw [h.st _ (by unfold Par.natoms; omega)]
        exact names_vac p hp _ (by omega)
      refine ⟨l ++ eventsOf s neigh (s.idx (p.natoms + m)), ?_, ?_⟩
      · unfold events; rw [h1]; dsimp only; rw [if_neg (by rw [hv]; simp)]
      · intro a b
        rw [List.mem_append, h2]
        unfold eventsOf
        simp only [List.mem_map, List.mem_filter, Prod.mk.injEq]
        constructor
        · rintro (⟨⟨k, hk, ha⟩, hb⟩ | ⟨j, ⟨hj, hjV⟩, ha, hb⟩)
          · exact ⟨⟨k, by omega, ha⟩, hb⟩
          · subst hb; subst ha
            exact ⟨⟨m, by omega, rfl⟩, hj, by simpa using hjV⟩
        · rintro ⟨⟨k, hk, ha⟩, hb, hbV⟩
          by_cases e : k = m
          · subst e; exact Or.inr ⟨b, ⟨by rw [← ha]; exact hb, by simpa using hbV⟩, ha.symm, rfl⟩
          · exact Or.inl ⟨⟨k, by omega, ha⟩, hb, hbV⟩
  exact key p.nvac (le_refl _)

/-- The reverse of an event is an event of the occupation it leads to, if the neighbours are mutual, and it leads back. -/
theorem reverse_event (p : Par) (hp : Fits p) (neigh : ℕ → List ℕ) (hsym : ∀ a b, b ∈ neigh a → a ∈ neigh b)
    (hlt : ∀ a b, b ∈ neigh a → b < p.nsites) (s : St) (h : Inv p s) (a b : ℕ) (l) (hl : events p neigh s p.nvac = .ok l)
    (hab : (a, b) ∈ l) :
    (∃ l', events p neigh (apply s (a, b)) p.nvac = .ok l' ∧ (b, a) ∈ l') ∧ (apply (apply s (a, b)) (b, a)).state = s.state := by
  obtain ⟨l0, h1, h2⟩ := events_ok p hp neigh s h
  rw [hl] at h1; cases h1
  obtain ⟨⟨k, hk, ha⟩, hb, hbV⟩ := (h2 a b).1 hab
  have hnv := hp.vac
  have hka : p.natoms + k < p.nsites := by unfold Par.natoms; omega
  have ha' : a < p.nsites := by rw [ha]; exact h.lt _ hka
  have hb' := hlt a b hb
  refine ⟨?_, ?_⟩
  · obtain ⟨l', h3, h4⟩ := events_ok p hp neigh (apply s (a, b)) (apply_inv p s h a b ha' hb')
    refine ⟨l', h3, (h4 b a).2 ⟨⟨k, hk, ?_⟩, hsym a b hb, ?_⟩⟩
    · have hr : s.ridx a = p.natoms + k := by rw [ha, h.ri _ hka]
      simp only [apply, swap_tau]
      rw [hr]; unfold tau; rw [if_pos rfl, h.ir b hb']
    · simp only [apply, swap_tau]
      unfold tau; rw [if_pos rfl]; exact hbV
  · show swap (swap s.state a b) b a = s.state
    exact swap_swap _ _ _

/-- Different events lead to different occupations. -/
theorem targets_distinct (st : ℕ → Sp) (a b a' b' : ℕ) (ha : st a = .V) (hb : st b ≠ .V) (ha' : st a' = .V) (hb' : st b' ≠ .V)
    (e : swap st a b = swap st a' b') : a = a' ∧ b = b' := by
  have hval : ∀ x y z, swap st x y z = if z = x then st y else if z = y then st x else st z := by
    intro x y z; rw [swap_tau]; show st (tau x y z) = _; unfold tau; split_ifs <;> rfl
  have h1 := congrFun e a
  have h2 := congrFun e b
  rw [hval, hval, if_pos rfl] at h1
  rw [hval, hval] at h2
  have hba : b ≠ a := fun e' => hb (e' ▸ ha)
  have hba' : b' ≠ a' := fun e' => hb' (e' ▸ ha')
  rw [if_neg hba, if_pos rfl] at h2
  constructor
  · by_contra hne
    rw [if_neg hne] at h1
    split_ifs at h1 with h3
    · rw [h3] at ha; exact hb' ha
    · rw [ha] at h1; exact hb h1
  · by_contra hne
    split_ifs at h2 with h3
    · rw [h3] at hb; exact hb ha'
    · rw [ha] at h2; exact hb h2.symm

/-- No event occurs twice if no site occurs twice among the neighbours of another. -/
theorem events_nodup (p : Par) (hp : Fits p) (neigh : ℕ → List ℕ) (hnd : ∀ a < p.nsites, (neigh a).Nodup) (s : St) (h : Inv p s) (l)
    (hl : events p neigh s p.nvac = .ok l) : l.Nodup := by
  have key : ∀ m ≤ p.nvac, ∀ l, events p neigh s m = .ok l → l.Nodup ∧ ∀ e ∈ l, ∃ k < m, e.1 = s.idx (p.natoms + k) := by
    intro m
    induction m with
    | zero => intro _ l e; cases e; exact ⟨List.nodup_nil, fun e he => (nomatch he)⟩
    | succ m ih =>
      intro hm l e
      have hn := hp.vac
      have hlt : p.natoms + m < p.nsites := by unfold Par.natoms; omega
      have hv : s.state (s.idx (p.natoms + m)) = .V := by
        rw [h.st _ hlt]; exact names_vac p hp _ (by omega)
      unfold events at e
      cases h1 : events p neigh s m with
      | error x => rw [h1] at e; exact (nomatch e)
      | ok l' =>
        rw [h1] at e; dsimp only at e; rw [if_neg (by rw [hv]; simp)] at e
        cases e
        obtain ⟨h2, h3⟩ := ih (by omega) l' h1
        have h4 : ∀ e ∈ eventsOf s neigh (s.idx (p.natoms + m)), e.1 = s.idx (p.natoms + m) := by
          intro e he
          unfold eventsOf at he
          obtain ⟨x, _, rfl⟩ := List.mem_map.1 he
          rfl
        refine ⟨?_, ?_⟩
        · refine List.Nodup.append h2 ?_ ?_
          · unfold eventsOf
            exact ((hnd _ (h.lt _ hlt)).filter _).map fun x y hxy => (Prod.mk.inj hxy).2
          · intro e he he'
            obtain ⟨k, hk, hk'⟩ := h3 e he
            rw [h4 e he'] at hk'
            have := congrArg s.ridx hk'
            rw [h.ri _ hlt, h.ri _ (by unfold Par.natoms; omega)] at this
            omega
        · intro e he
          rcases List.mem_append.1 he with he | he
          · obtain ⟨k, hk, hk'⟩ := h3 e he; exact ⟨k, by omega, hk'⟩
          · exact ⟨m, by omega, h4 e he⟩
  exact (key p.nvac (le_refl _) l hl).1

/-- Detailed balance: the rates of an event and its reverse, weighted with the probabilities of the two occupations, agree. -/
theorem detailed_balance (kT : ℝ) (hT : kT ≠ 0) (bar pre : Sp → ℝ) (E : (ℕ → Sp) → ℝ) (st : ℕ → Sp) (a b : ℕ) :
    Real.exp (-(E st) / kT) * rate kT bar pre E st (a, b)
      = Real.exp (-(E (swap st a b)) / kT) * rate kT bar pre E (swap st a b) (b, a) := by
  have e1 : swap st a b a = st b := by rw [swap_tau]; show st (tau a b a) = st b; unfold tau; rw [if_pos rfl]
  unfold rate
  dsimp only
  rw [swap_swap, e1]
  have : ∀ x y z : ℝ, Real.exp x * (z * Real.exp y) = z * Real.exp (x + y) := by
    intro x y z; rw [Real.exp_add]; ring
  rw [this, this]
  congr 2
  field_simp
  ring

/-- Rates are positive. -/
theorem rate_pos (kT : ℝ) (bar pre : Sp → ℝ) (hpre : ∀ s, 0 < pre s) (E : (ℕ → Sp) → ℝ) (st : ℕ → Sp) (e : ℕ × ℕ) :
    0 < rate kT bar pre E st e := by
  unfold rate; exact mul_pos (hpre _) (Real.exp_pos _)

/-! ### Selection -/

theorem pick_iff (f : ℝ) (acc : ℝ) (l : List ℝ) (hpos : ∀ r ∈ l, 0 < r) (i : ℕ) :
    pick f acc l = .ok i ↔ i < l.length ∧ (i = 0 ∨ acc + (l.take i).sum < f) ∧ f ≤ acc + (l.take (i + 1)).sum := by
  induction l generalizing acc i with
  | nil => simp [pick]
  | cons r l ih =>
    have hr := hpos r (by simp)
    have hl : ∀ x ∈ l, 0 < x := fun x hx => hpos x (by simp [hx])
    unfold pick
    by_cases h : f > acc + r
    · rw [if_pos h]
      cases i with
      | zero =>
        constructor
        · intro e
          cases hp : pick f (acc + r) l with
          | error x => rw [hp] at e; exact (nomatch e)
          | ok k => rw [hp] at e; simp [Except.map] at e
        · rintro ⟨_, _, h3⟩; simp at h3; linarith
      | succ i =>
        have key := ih (acc + r) hl i
        have e1 : (pick f (acc + r) l).map (· + 1) = .ok (i + 1) ↔ pick f (acc + r) l = .ok i := by
          cases hp : pick f (acc + r) l with
          | error x => simp [Except.map]
          | ok k => simp [Except.map]
        rw [e1, key]
        simp only [List.length_cons, List.take_succ_cons, List.sum_cons]
        constructor
        · rintro ⟨h1, h2, h3⟩
          refine ⟨by omega, Or.inr ?_, by linarith⟩
          rcases h2 with rfl | h2
          · simp; linarith
          · linarith
        · rintro ⟨h1, h2, h3⟩
          refine ⟨by omega, ?_, by linarith⟩
          by_cases hi : i = 0
          · exact Or.inl hi
          · rcases h2 with h2 | h2
            · omega
            · exact Or.inr (by linarith)
    · rw [if_neg h]
      constructor
      · intro e
        cases e
        refine ⟨by simp, Or.inl rfl, ?_⟩
        simp; linarith
      · rintro ⟨h1, h2, h3⟩
        cases i with
        | zero => rfl
        | succ i =>
          exfalso
          rcases h2 with h2 | h2
          · omega
          · simp only [List.take_succ_cons, List.sum_cons] at h2
            have : 0 ≤ (l.take i).sum := List.sum_nonneg fun x hx => (hl x (List.mem_of_mem_take hx)).le
            linarith

/-- The event with number `i` is chosen exactly if the random number lies in an interval whose length is its share of the total rate. -/
theorem pick_share (u : ℝ) (l : List ℝ) (hpos : ∀ r ∈ l, 0 < r) (hl : l ≠ []) (i : ℕ) (hi : i < l.length) (hu : 0 < u) :
    (pick (u * l.sum) 0 l = .ok i ↔ (l.take i).sum / l.sum < u ∧ u ≤ (l.take (i + 1)).sum / l.sum) ∧
    (l.take (i + 1)).sum / l.sum - (l.take i).sum / l.sum = l[i] / l.sum := by
  have hs : 0 < l.sum := List.sum_pos l hpos hl
  constructor
  · rw [pick_iff _ _ _ hpos, div_lt_iff₀ hs, le_div_iff₀ hs]
    simp only [zero_add]
    constructor
    · rintro ⟨_, h2, h3⟩
      refine ⟨?_, h3⟩
      rcases h2 with rfl | h2
      · simp; positivity
      · exact h2
    · rintro ⟨h2, h3⟩; exact ⟨hi, Or.inr h2, h3⟩
  · rw [← sub_div]; congr 1; rw [List.sum_take_succ l i hi]; ring

/-- One of the events is chosen if there are any. -/
theorem pick_some (u : ℝ) (hu1 : u < 1) (l : List ℝ) (hpos : ∀ r ∈ l, 0 < r) (hl : l ≠ []) :
    ∃ i < l.length, pick (u * l.sum) 0 l = .ok i := by
  have hs : 0 < l.sum := List.sum_pos l hpos hl
  have key : ∀ (l : List ℝ) (acc f : ℝ), l ≠ [] → f ≤ acc + l.sum → ∃ i < l.length, pick f acc l = .ok i := by
    intro l
    induction l with
    | nil => intro _ _ h; exact absurd rfl h
    | cons r l ih =>
      intro acc f _ hf
      unfold pick
      by_cases h : f > acc + r
      · rw [if_pos h]
        have hne : l ≠ [] := by
          rintro rfl; simp at hf; linarith
        obtain ⟨i, hi, e⟩ := ih (acc + r) f hne (by rw [List.sum_cons] at hf; linarith)
        exact ⟨i + 1, by simp; omega, by rw [e]; rfl⟩
      · rw [if_neg h]; exact ⟨0, by simp, rfl⟩
  exact key l 0 _ hl (by nlinarith)

theorem dwell_nonneg (cdf u : ℝ) (hc : 0 < cdf) (hu0 : 0 ≤ u) (hu1 : u < 1) : 0 ≤ dwell cdf u := by
  unfold dwell
  have h1 : Real.log (1 - u) ≤ 0 := Real.log_nonpos (by linarith) (by linarith)
  have h2 : -1 / cdf ≤ 0 := by apply div_nonpos_of_nonpos_of_nonneg <;> linarith
  nlinarith [mul_nonneg_of_nonpos_of_nonpos h2 h1]

/-- The time is exponentially distributed with the total rate: it exceeds `t` exactly if `1 - u < exp (-cdf t)`. -/
theorem dwell_exponential (cdf u t : ℝ) (hc : 0 < cdf) (hu1 : u < 1) : t < dwell cdf u ↔ 1 - u < Real.exp (-(cdf * t)) := by
  have h : dwell cdf u = -Real.log (1 - u) / cdf := by unfold dwell; ring
  rw [h, lt_div_iff₀ hc, ← Real.log_lt_iff_lt_exp (by linarith)]
  constructor <;> intro h <;> linarith

/-- A step: if there is an event, one is carried out, the descriptions stay consistent, so that all atoms are kept, and time advances. -/
theorem step_ok (p : Par) (hp : Fits p) (neigh : ℕ → List ℕ) (hlt : ∀ a b, b ∈ neigh a → b < p.nsites) (kT : ℝ) (bar pre : Sp → ℝ)
    (hpre : ∀ s, 0 < pre s) (E : (ℕ → Sp) → ℝ) (u1 u2 : ℝ) (h10 : 0 ≤ u1) (h11 : u1 < 1) (h20 : 0 ≤ u2) (h21 : u2 < 1)
    (s : St) (h : Inv p s) (a b : ℕ) (ha : ∃ k < p.nvac, a = s.idx (p.natoms + k)) (hb : b ∈ neigh a) (hbV : s.state b ≠ .V) :
    ∃ s' t, step p neigh kT bar pre E u1 u2 s = .ok (s', t) ∧ Inv p s' ∧ 0 ≤ t ∧
      ∃ a' b', (∃ k < p.nvac, a' = s.idx (p.natoms + k)) ∧ b' ∈ neigh a' ∧ s.state b' ≠ .V ∧ s' = apply s (a', b') := by
  obtain ⟨l, h1, h2⟩ := events_ok p hp neigh s h
  have hmem := (h2 a b).2 ⟨ha, hb, hbV⟩
  have hne : l.map (rate kT bar pre E s.state) ≠ [] := by
    intro e; rw [List.map_eq_nil_iff] at e; rw [e] at hmem; exact (nomatch hmem)
  have hpos : ∀ r ∈ l.map (rate kT bar pre E s.state), 0 < r := by
    intro r hr; obtain ⟨e, _, rfl⟩ := List.mem_map.1 hr; exact rate_pos kT bar pre hpre E _ e
  obtain ⟨i, hi, hpick⟩ := pick_some u1 h11 _ hpos hne
  rw [List.length_map] at hi
  obtain ⟨hk, hb', hbV'⟩ := (h2 (l[i]).1 (l[i]).2).1 (by simp)
  have hk' := hk
  obtain ⟨k, hkv, hka⟩ := hk'
  have hnv := hp.vac
  refine ⟨apply s l[i], dwell (l.map (rate kT bar pre E s.state)).sum u2, ?_, ?_, ?_, (l[i]).1, (l[i]).2, hk, hb', hbV', rfl⟩
  · unfold step
    rw [h1]; dsimp only; rw [hpick]; dsimp only
    rw [List.getElem?_eq_getElem hi]
  · refine apply_inv p s h _ _ ?_ (hlt _ _ hb')
    have := h.lt (p.natoms + k) (by unfold Par.natoms; omega)
    rw [← hka] at this; exact this
  · exact dwell_nonneg _ _ (List.sum_pos _ hpos hne) h20 h21

/-- Without an event, that is without vacancies or with vacancies among vacancies only, the step fails. -/
theorem step_stuck (p : Par) (hp : Fits p) (neigh : ℕ → List ℕ) (kT : ℝ) (bar pre : Sp → ℝ) (E : (ℕ → Sp) → ℝ) (u1 u2 : ℝ)
    (s : St) (h : Inv p s) (hno : ∀ a b, (∃ k < p.nvac, a = s.idx (p.natoms + k)) → b ∈ neigh a → s.state b = .V) :
    step p neigh kT bar pre E u1 u2 s = .error .index := by
  obtain ⟨l, h1, h2⟩ := events_ok p hp neigh s h
  have : l = [] := by
    rw [List.eq_nil_iff_forall_not_mem]
    rintro ⟨a, b⟩ hab
    obtain ⟨h3, h4, h5⟩ := (h2 a b).1 hab
    exact h5 (hno a b h3 h4)
  unfold step
  rw [h1, this]; rfl

/-! ### The canonical order of the atoms -/

/-- First index of a kind, and how many there are. -/
def off (p : Par) : Sp → ℕ
  | .S => 0
  | .M => p.nsi
  | .A => p.nsi + p.nmg
  | .V => p.natoms
def cap (p : Par) : Sp → ℕ
  | .S => p.nsi
  | .M => p.nmg
  | .A => p.natoms - (p.nsi + p.nmg)
  | .V => p.nvac

/-- How many sites below `k` are of a kind. -/
def count (st : ℕ → Sp) (x : Sp) (k : ℕ) : ℕ := ((Finset.range k).filter fun j => st j = x).card

theorem count_succ (st : ℕ → Sp) (x : Sp) (k : ℕ) : count st x (k + 1) = count st x k + if st k = x then 1 else 0 := by
  unfold count
  rw [Finset.range_add_one, Finset.filter_insert]
  split
  · rw [Finset.card_insert_of_notMem (by simp)]
  · simp

/-- The counters. -/
def ctr (c : Cnt) : Sp → ℕ
  | .S => c.ksi
  | .M => c.kmg
  | .A => c.kal
  | .V => c.kvac

theorem ctr_eq (p : Par) (st : ℕ → Sp) (k : ℕ) (x : Sp) : ctr (uniqFrom p st k) x = off p x + count st x k := by
  induction k with
  | zero => cases x <;> simp [uniqFrom, ctr, off, count]
  | succ k ih =>
    rw [count_succ, ← add_assoc, ← ih]
    show ctr (uniqStep (uniqFrom p st k) (st k) k) x = _
    cases hk : st k <;> cases x <;> simp [uniqStep, ctr]

/-- The place of the atom at site `j` in the canonical order. -/
def rank (p : Par) (st : ℕ → Sp) (j : ℕ) : ℕ := off p (st j) + count st (st j) j

theorem uniq_idx (p : Par) (st : ℕ → Sp) (k : ℕ) :
    (uniqFrom p st (k + 1)).idx = Function.update (uniqFrom p st k).idx (rank p st k) k := by
  show (uniqStep (uniqFrom p st k) (st k) k).idx = _
  have h := ctr_eq p st k (st k)
  unfold rank
  rw [← h]
  cases hk : st k <;> rfl

theorem names_off (p : Par) (hp : Fits p) (x : Sp) (r : ℕ) (hr : r < cap p x) : names p (off p x + r) = x ∧ off p x + r < p.nsites := by
  have h1 := hp.vac; have h2 := hp.sol
  have key : ∀ i, off p x ≤ i → i < off p x + cap p x → names p i = x ∧ i < p.nsites := by
    intro i hi1 hi2
    unfold names
    have hna : p.natoms = p.nsites - p.nvac := rfl
    cases x <;> simp only [off, cap] at hi1 hi2 ⊢
    · rw [if_pos (by omega)]; exact ⟨rfl, by omega⟩
    · rw [if_neg (by omega), if_pos (by omega)]; exact ⟨rfl, by omega⟩
    · rw [if_neg (by omega), if_neg (by omega), if_pos (by omega)]; exact ⟨rfl, by omega⟩
    · rw [if_neg (by omega), if_neg (by omega), if_neg (by omega)]; exact ⟨rfl, by omega⟩
  exact key _ (by omega) (by omega)

/-- The numbers of atoms of each kind are those given. -/
theorem count_cap (p : Par) (hp : Fits p) (s : St) (h : Inv p s) (x : Sp) : count s.state x p.nsites = cap p x := by
  have e1 : count s.state x p.nsites = ((Finset.range p.nsites).filter fun i => names p i = x).card := by
    unfold count
    refine Finset.card_nbij' s.ridx s.idx ?_ ?_ ?_ ?_
    · intro j hj
      simp only [Finset.coe_filter, Finset.mem_range, Set.mem_setOf_eq] at hj ⊢
      refine ⟨h.rlt j hj.1, ?_⟩
      rw [← h.st _ (h.rlt j hj.1), h.ir j hj.1]; exact hj.2
    · intro i hi
      simp only [Finset.coe_filter, Finset.mem_range, Set.mem_setOf_eq] at hi ⊢
      exact ⟨h.lt i hi.1, by rw [h.st i hi.1]; exact hi.2⟩
    · intro j hj
      simp only [Finset.coe_filter, Finset.mem_range, Set.mem_setOf_eq] at hj
      exact h.ir j hj.1
    · intro i hi
      simp only [Finset.coe_filter, Finset.mem_range, Set.mem_setOf_eq] at hi
      exact h.ri i hi.1
  have e2 : ((Finset.range p.nsites).filter fun i => names p i = x) = Finset.Ico (off p x) (off p x + cap p x) := by
    ext i
    simp only [Finset.mem_filter, Finset.mem_range, Finset.mem_Ico]
    constructor
    · rintro ⟨hi, hx⟩
      have h1 := hp.vac; have h2 := hp.sol
      unfold names Par.natoms at hx
      subst hx
      split_ifs <;> simp only [off, cap, Par.natoms] <;> omega
    · rintro ⟨hi1, hi2⟩
      obtain ⟨r, rfl⟩ := Nat.exists_eq_add_of_le hi1
      have := names_off p hp x r (by omega)
      exact ⟨this.2, this.1⟩
  rw [e1, e2, Nat.card_Ico]; omega

theorem count_mono (st : ℕ → Sp) (x : Sp) (j k : ℕ) (hjk : j < k) (hj : st j = x) : count st x j < count st x k := by
  unfold count
  apply Finset.card_lt_card
  refine ⟨fun i hi => ?_, fun hsub => ?_⟩
  · simp only [Finset.mem_filter, Finset.mem_range] at hi ⊢; exact ⟨by omega, hi.2⟩
  · have := hsub (by simp only [Finset.mem_filter, Finset.mem_range]; exact ⟨hjk, hj⟩ : j ∈ _)
    simp at this

theorem names_rank (p : Par) (hp : Fits p) (s : St) (h : Inv p s) (j : ℕ) (hj : j < p.nsites) :
    names p (rank p s.state j) = s.state j ∧ rank p s.state j < p.nsites := by
  refine names_off p hp _ _ ?_
  rw [← count_cap p hp s h]
  exact count_mono _ _ _ _ hj rfl

theorem rank_inj (p : Par) (hp : Fits p) (s : St) (h : Inv p s) (j k : ℕ) (hjk : j < k) (hk : k < p.nsites) :
    rank p s.state j ≠ rank p s.state k := by
  intro e
  have h1 := (names_rank p hp s h j (by omega)).1
  have h2 := (names_rank p hp s h k hk).1
  rw [e, h2] at h1
  unfold rank at e
  rw [h1] at e
  have := count_mono s.state (s.state j) j k hjk rfl
  omega

theorem uniq_rank (p : Par) (hp : Fits p) (s : St) (h : Inv p s) (m : ℕ) (hm : m ≤ p.nsites) (j : ℕ) (hj : j < m) :
    (uniqFrom p s.state m).idx (rank p s.state j) = j := by
  induction m with
  | zero => omega
  | succ m ih =>
    rw [uniq_idx]
    by_cases e : j = m
    · subst e; simp
    · rw [Function.update_of_ne (rank_inj p hp s h j m (by omega) (by omega))]
      exact ih (by omega) (by omega)

theorem rank_surj (p : Par) (hp : Fits p) (s : St) (h : Inv p s) (k : ℕ) (hk : k < p.nsites) : ∃ j < p.nsites, rank p s.state j = k := by
  have := Finset.surjOn_of_injOn_of_card_le (s := Finset.range p.nsites) (t := Finset.range p.nsites) (rank p s.state)
    (fun i hi => by simpa using (names_rank p hp s h i (by simpa using hi)).2)
    (fun a ha b hb hab => by
      simp only [Finset.coe_range, Set.mem_Iio] at ha hb
      rcases Nat.lt_trichotomy a b with hl | hl | hl
      · exact absurd hab (rank_inj p hp s h a b hl hb)
      · exact hl
      · exact absurd hab.symm (rank_inj p hp s h b a hl ha)) (le_refl _)
  obtain ⟨i, hi, hij⟩ := this (by simpa using hk : k ∈ (Finset.range p.nsites : Set ℕ))
  exact ⟨i, by simpa using hi, hij⟩

/-- The structure that is relaxed has at each site an atom of the kind that the occupation has there. -/
theorem unique_spec (p : Par) (hp : Fits p) (s : St) (h : Inv p s) :
    (∀ k < p.nsites, uniqueIdx p s.state k < p.nsites ∧ s.state (uniqueIdx p s.state k) = names p k) ∧
    ∀ i < p.nsites, ∀ j < p.nsites, uniqueIdx p s.state i = uniqueIdx p s.state j → i = j := by
  have key : ∀ k < p.nsites, ∃ j < p.nsites, rank p s.state j = k ∧ uniqueIdx p s.state k = j := by
    intro k hk
    obtain ⟨j, hj, e⟩ := rank_surj p hp s h k hk
    exact ⟨j, hj, e, by rw [← e]; exact uniq_rank p hp s h p.nsites (le_refl _) j hj⟩
  refine ⟨?_, ?_⟩
  · intro k hk
    obtain ⟨j, hj, e, e2⟩ := key k hk
    rw [e2]
    exact ⟨hj, by rw [← e]; exact (names_rank p hp s h j hj).1.symm⟩
  · intro i hi j hj e
    obtain ⟨a, _, ea, e1⟩ := key i hi
    obtain ⟨b, _, eb, e2⟩ := key j hj
    rw [e1, e2] at e; subst e; rw [← ea, ← eb]

/-- After a step each atom has the relaxed position of the atom of its own kind that the relaxed structure has at its site. -/
theorem new_positions {X : Type} (p : Par) (hp : Fits p) (Qr : (ℕ → Sp) → ℕ → X) (s : St) (h : Inv p s) (i : ℕ) (hi : i < p.nsites) :
    ∃ k < p.nsites, newPos p Qr s i = Qr s.state k ∧ uniqueIdx p s.state k = s.idx i ∧ names p k = names p i := by
  obtain ⟨hu1, hu2⟩ := unique_spec p hp s h
  have hr := names_rank p hp s h (s.idx i) (h.lt i hi)
  have hk : uniqueIdx p s.state (rank p s.state (s.idx i)) = s.idx i := uniq_rank p hp s h p.nsites (le_refl _) _ (h.lt i hi)
  refine ⟨rank p s.state (s.idx i), hr.2, ?_, hk, ?_⟩
  · unfold newPos
    congr 1
    have := scatter_at (fun _ => 0) (uniqueIdx p s.state) (fun k => k) p.nsites hu2 _ hr.2
    rw [hk] at this
    exact this
  · rw [hr.1, h.st i hi]

/-! ### The lattice -/

theorem wrap_neg (n : ℕ) (d : ℤ) : wrap n (-d) = - wrap n d := by
  unfold wrap; split_ifs <;> omega

/-- Neighbours are mutual, for every size. -/
theorem near_symm (n i j : ℕ) : near n i j = near n j i := by
  have : diff n j i = (-(diff n i j).1, -(diff n i j).2.1, -(diff n i j).2.2) := by
    unfold diff
    simp only [← wrap_neg]
    refine Prod.ext ?_ (Prod.ext ?_ ?_) <;> dsimp only <;> congr 1 <;> ring
  unfold near
  rw [this]
  unfold dist2
  congr 1
  apply propext
  dsimp only
  constructor <;> intro h <;> linarith

theorem mem_neighbours (n i j : ℕ) : j ∈ neighbours n i ↔ j < n ^ 3 ∧ j ≠ i ∧ near n i j = true := by
  unfold neighbours
  simp [List.mem_filter, List.mem_range]

/-- The twelve vectors to the nearest sites. -/
def vecs : List (ℤ × ℤ × ℤ) :=
  [(1, 0, 0), (-1, 0, 0), (0, 1, 0), (0, -1, 0), (0, 0, 1), (0, 0, -1), (1, -1, 0), (-1, 1, 0), (1, 0, -1), (-1, 0, 1), (0, 1, -1), (0, -1, 1)]

theorem dist_iff (m : ℤ × ℤ × ℤ) : dist2 m ≤ 2 ∧ m ≠ (0, 0, 0) ↔ m ∈ vecs := by
  obtain ⟨x, y, z⟩ := m
  constructor
  · rintro ⟨h, h0⟩
    unfold dist2 at h
    dsimp only at h
    have := sq_nonneg (x + y + z)
    have hx1 : x ≤ 1 := by nlinarith [sq_nonneg y, sq_nonneg z]
    have hx2 : -1 ≤ x := by nlinarith [sq_nonneg y, sq_nonneg z]
    have hy1 : y ≤ 1 := by nlinarith [sq_nonneg x, sq_nonneg z]
    have hy2 : -1 ≤ y := by nlinarith [sq_nonneg x, sq_nonneg z]
    have hz1 : z ≤ 1 := by nlinarith [sq_nonneg y, sq_nonneg x]
    have hz2 : -1 ≤ z := by nlinarith [sq_nonneg y, sq_nonneg x]
    interval_cases x <;> interval_cases y <;> interval_cases z <;> first | (exfalso; revert h; norm_num; done) | (exfalso; exact h0 rfl) | decide
  · intro h
    simp only [vecs, List.mem_cons, Prod.mk.injEq, List.not_mem_nil, or_false] at h
    rcases h with h | h | h | h | h | h | h | h | h | h | h | h <;> obtain ⟨rfl, rfl, rfl⟩ := h <;> exact ⟨by decide, by decide⟩

/-- A coordinate after one step in the periodic lattice. -/
def red (n : ℕ) (x : ℤ) : ℤ := if x < 0 then x + n else if x ≥ n then x - n else x

theorem wrap_iff (n : ℕ) (hn : 3 ≤ n) (a b : ℤ) (ha : 0 ≤ a ∧ a < n) (hb : 0 ≤ b ∧ b < n) (v : ℤ) (hv : -1 ≤ v ∧ v ≤ 1) :
    wrap n (b - a) = v ↔ b = red n (a + v) := by
  unfold wrap red; split_ifs <;> omega

theorem red_range (n : ℕ) (hn : 3 ≤ n) (a v : ℤ) (ha : 0 ≤ a ∧ a < n) (hv : -1 ≤ v ∧ v ≤ 1) : 0 ≤ red n (a + v) ∧ red n (a + v) < n := by
  unfold red; split_ifs <;> omega

theorem coord_range (n i : ℕ) (hn : 0 < n) (hi : i < n ^ 3) :
    (coord n i).1 < n ∧ (coord n i).2.1 < n ∧ (coord n i).2.2 < n := by
  refine ⟨?_, Nat.mod_lt _ hn, Nat.mod_lt _ hn⟩
  show i / (n * n) < n
  rw [Nat.div_lt_iff_lt_mul (by positivity)]
  calc i < n ^ 3 := hi
    _ = n * (n * n) := by ring

theorem coord_join (n x y z : ℕ) (hy : y < n) (hz : z < n) : coord n ((x * n + y) * n + z) = (x, y, z) := by
  have hn : 0 < n := by omega
  have h1 : ((x * n + y) * n + z) / n = x * n + y := by
    rw [Nat.add_comm, Nat.add_mul_div_right _ _ hn, Nat.div_eq_of_lt hz]; omega
  have h2 : (x * n + y) / n = x := by
    rw [Nat.add_comm, Nat.add_mul_div_right _ _ hn, Nat.div_eq_of_lt hy]; omega
  unfold coord
  rw [← Nat.div_div_eq_div_mul, h1, h2]
  refine Prod.ext rfl (Prod.ext ?_ ?_)
  · show (x * n + y) % n = y
    rw [Nat.add_comm, Nat.add_mul_mod_self_right, Nat.mod_eq_of_lt hy]
  · show ((x * n + y) * n + z) % n = z
    rw [Nat.add_comm, Nat.add_mul_mod_self_right, Nat.mod_eq_of_lt hz]

theorem join_coord (n i : ℕ) (hn : 0 < n) : ((coord n i).1 * n + (coord n i).2.1) * n + (coord n i).2.2 = i := by
  unfold coord
  dsimp only
  rw [← Nat.div_div_eq_div_mul]
  have h1 : i / n / n * n + i / n % n = i / n := by rw [Nat.mul_comm]; exact Nat.div_add_mod _ _
  rw [h1, Nat.mul_comm]
  exact Nat.div_add_mod _ _

/-- The site reached by a vector. -/
def go (n i : ℕ) (v : ℤ × ℤ × ℤ) : ℕ :=
  ((red n ((coord n i).1 + v.1)).toNat * n + (red n ((coord n i).2.1 + v.2.1)).toNat) * n + (red n ((coord n i).2.2 + v.2.2)).toNat

theorem vecs_range (v : ℤ × ℤ × ℤ) (hv : v ∈ vecs) : (-1 ≤ v.1 ∧ v.1 ≤ 1) ∧ (-1 ≤ v.2.1 ∧ v.2.1 ≤ 1) ∧ (-1 ≤ v.2.2 ∧ v.2.2 ≤ 1) := by
  simp only [vecs, List.mem_cons, List.not_mem_nil, or_false] at hv
  rcases hv with h | h | h | h | h | h | h | h | h | h | h | h <;> subst h <;> decide

theorem go_diff (n i : ℕ) (hn : 3 ≤ n) (hi : i < n ^ 3) (v : ℤ × ℤ × ℤ) (hv : v ∈ vecs) : go n i v < n ^ 3 ∧ diff n i (go n i v) = v := by
  obtain ⟨c1, c2, c3⟩ := coord_range n i (by omega) hi
  obtain ⟨v1, v2, v3⟩ := vecs_range v hv
  have r1 := red_range n hn (coord n i).1 v.1 ⟨by omega, by omega⟩ v1
  have r2 := red_range n hn (coord n i).2.1 v.2.1 ⟨by omega, by omega⟩ v2
  have r3 := red_range n hn (coord n i).2.2 v.2.2 ⟨by omega, by omega⟩ v3
  have n1 : (red n ((coord n i).1 + v.1)).toNat < n := by omega
  have n2 : (red n ((coord n i).2.1 + v.2.1)).toNat < n := by omega
  have n3 : (red n ((coord n i).2.2 + v.2.2)).toNat < n := by omega
  constructor
  · unfold go
    calc ((red n ((coord n i).1 + v.1)).toNat * n + (red n ((coord n i).2.1 + v.2.1)).toNat) * n + (red n ((coord n i).2.2 + v.2.2)).toNat
        < (((red n ((coord n i).1 + v.1)).toNat * n + (red n ((coord n i).2.1 + v.2.1)).toNat) + 1) * n := by nlinarith
      _ ≤ (((red n ((coord n i).1 + v.1)).toNat + 1) * n) * n := by
        apply Nat.mul_le_mul_right; nlinarith
      _ ≤ (n * n) * n := by
        apply Nat.mul_le_mul_right; apply Nat.mul_le_mul_right; omega
      _ = n ^ 3 := by ring
  · unfold diff go
    rw [coord_join n _ _ _ n2 n3]
    dsimp only
    refine Prod.ext ?_ (Prod.ext ?_ ?_)
    · exact (wrap_iff n hn _ _ ⟨by omega, by omega⟩ ⟨by omega, by omega⟩ v.1 v1).2 (by omega)
    · exact (wrap_iff n hn _ _ ⟨by omega, by omega⟩ ⟨by omega, by omega⟩ v.2.1 v2).2 (by omega)
    · exact (wrap_iff n hn _ _ ⟨by omega, by omega⟩ ⟨by omega, by omega⟩ v.2.2 v3).2 (by omega)

theorem diff_inj (n i j : ℕ) (hn : 3 ≤ n) (hi : i < n ^ 3) (hj : j < n ^ 3) (v : ℤ × ℤ × ℤ)
    (hv : (-1 ≤ v.1 ∧ v.1 ≤ 1) ∧ (-1 ≤ v.2.1 ∧ v.2.1 ≤ 1) ∧ (-1 ≤ v.2.2 ∧ v.2.2 ≤ 1)) (h : diff n i j = v) : j = go n i v := by
  obtain ⟨c1, c2, c3⟩ := coord_range n i (by omega) hi
  obtain ⟨d1, d2, d3⟩ := coord_range n j (by omega) hj
  obtain ⟨v1, v2, v3⟩ := hv
  have e1 := (wrap_iff n hn _ _ ⟨by omega, by omega⟩ ⟨by omega, by omega⟩ v.1 v1).1 (congrArg Prod.fst h)
  have e2 := (wrap_iff n hn _ _ ⟨by omega, by omega⟩ ⟨by omega, by omega⟩ v.2.1 v2).1 (congrArg (fun x => x.2.1) h)
  have e3 := (wrap_iff n hn _ _ ⟨by omega, by omega⟩ ⟨by omega, by omega⟩ v.2.2 v3).1 (congrArg (fun x => x.2.2) h)
  unfold go
  rw [← e1, ← e2, ← e3]
  simp only [Int.toNat_natCast]
  exact (join_coord n j (by omega)).symm

theorem diff_self (n i : ℕ) : diff n i i = (0, 0, 0) := by
  have : wrap n 0 = 0 := by unfold wrap; split_ifs <;> omega
  unfold diff; simp [this]

theorem neighbours_iff (n i j : ℕ) (hn : 3 ≤ n) (hi : i < n ^ 3) : j ∈ neighbours n i ↔ ∃ v ∈ vecs, go n i v = j := by
  rw [mem_neighbours]
  have h00 : go n i (0, 0, 0) = i := by
    exact (diff_inj n i i hn hi hi _ ⟨⟨by norm_num, by norm_num⟩, ⟨by norm_num, by norm_num⟩, ⟨by norm_num, by norm_num⟩⟩ (diff_self n i)).symm
  constructor
  · rintro ⟨hj, hne, hnear⟩
    have hd : dist2 (diff n i j) ≤ 2 := by simpa [near] using hnear
    have hnz : diff n i j ≠ (0, 0, 0) := by
      intro e
      apply hne
      rw [diff_inj n i j hn hi hj _ ⟨⟨by norm_num, by norm_num⟩, ⟨by norm_num, by norm_num⟩, ⟨by norm_num, by norm_num⟩⟩ e, h00]
    have hv := (dist_iff _).1 ⟨hd, hnz⟩
    exact ⟨diff n i j, hv, (diff_inj n i j hn hi hj _ (vecs_range _ hv) rfl).symm⟩
  · rintro ⟨v, hv, rfl⟩
    obtain ⟨h1, h2⟩ := go_diff n i hn hi v hv
    have hd := (dist_iff v).2 hv
    refine ⟨h1, ?_, ?_⟩
    · intro e
      rw [e] at h2
      apply hd.2
      rw [← h2, diff_self]
    · unfold near; rw [h2]; simpa using hd.1

/-- In a lattice of at least three cells in each direction each site has exactly twelve neighbours, all different. -/
theorem twelve (n i : ℕ) (hn : 3 ≤ n) (hi : i < n ^ 3) : (neighbours n i).length = 12 ∧ (neighbours n i).Nodup ∧ neigh n i = neighbours n i := by
  have hnd : (neighbours n i).Nodup := List.Nodup.filter _ List.nodup_range
  have hlen : (neighbours n i).length = 12 := by
    have e : (neighbours n i).toFinset = (vecs.map (go n i)).toFinset := by
      ext j
      rw [List.mem_toFinset, List.mem_toFinset, neighbours_iff n i j hn hi, List.mem_map]
    have hnd2 : (vecs.map (go n i)).Nodup := by
      refine List.Nodup.map_on ?_ (by decide)
      intro x hx y hy hxy
      have h1 := (go_diff n i hn hi x hx).2
      have h2 := (go_diff n i hn hi y hy).2
      rw [hxy, h2] at h1
      exact h1.symm
    rw [← List.toFinset_card_of_nodup hnd, e, List.toFinset_card_of_nodup hnd2, List.length_map]
    rfl
  refine ⟨hlen, hnd, ?_⟩
  unfold neigh; rw [hlen]; simp

/-- So the neighbour lists are mutual. -/
theorem neigh_symm (n i j : ℕ) (hn : 3 ≤ n) (hi : i < n ^ 3) (h : j ∈ neigh n i) : i ∈ neigh n j := by
  rw [(twelve n i hn hi).2.2, mem_neighbours] at h
  rw [(twelve n j hn h.1).2.2, mem_neighbours]
  exact ⟨hi, fun e => h.2.1 e.symm, by rw [near_symm]; exact h.2.2⟩

/-- With two cells they are not: rows with fewer than twelve neighbours are filled with the first site, to which vacancies jump across the
cell without a way back. -/
theorem not_mutual_two : 0 ∈ neigh 2 7 ∧ near 2 7 0 = false ∧ 7 ∉ neigh 2 0 := by
  decide

/-- So detailed balance fails: from an occupation with a vacancy at the last site an event leads to one from which none leads back. -/
theorem not_reversible_two : ¬ ∀ (p : Par) (_ : Fits p) (_ : p.nsites = 2 ^ 3) (s : St) (_ : Inv p s) (a b : ℕ) (l l'),
    events p (neigh 2) s p.nvac = .ok l → (a, b) ∈ l → events p (neigh 2) (apply s (a, b)) p.nvac = .ok l' → (b, a) ∈ l' := by
  intro hyp
  have hp : Fits ⟨8, 1, 0, 0⟩ := ⟨by decide, by decide⟩
  have h := init_inv ⟨8, 1, 0, 0⟩ (fun i => i) (fun i hi => hi) (fun i _ j _ e => e)
  obtain ⟨l, h1, h2⟩ := events_ok _ hp (neigh 2) _ h
  have h70 : (7, 0) ∈ l := (h2 7 0).2 ⟨⟨0, by decide, rfl⟩, by decide, by decide⟩
  obtain ⟨l', h3, h4⟩ := events_ok _ hp (neigh 2) _ (apply_inv _ _ h 7 0 (by decide) (by decide))
  have := hyp _ hp rfl _ h 7 0 l l' h1 h70 h3
  exact absurd ((h4 0 7).1 this).2.1 (by decide)

/-! ### Non-vacuity -/

/-- A lattice of 27 sites with one vacancy, one silicon and one magnesium atom. -/
example : Fits ⟨27, 1, 1, 1⟩ := ⟨by decide, by decide⟩
example : Inv ⟨27, 1, 1, 1⟩ (init ⟨27, 1, 1, 1⟩ fun i => 26 - i) :=
  init_inv _ _ (fun i _ => by show 26 - i < 27; omega) (fun i hi j hj e => by
    have hi' : i < 27 := hi
    have hj' : j < 27 := hj
    omega)
example : (neigh 3 13).length = 12 := by
  rw [(twelve 3 13 (le_refl 3) (by decide)).2.2]; exact (twelve 3 13 (le_refl 3) (by decide)).1
/-- A step can be made from there. -/
example (E : (ℕ → Sp) → ℝ) : ∃ s' t, step ⟨27, 1, 1, 1⟩ (neigh 3) 1 (fun _ => 1) (fun _ => 1) E (1 / 2) (1 / 2)
    (init ⟨27, 1, 1, 1⟩ fun i => i) = .ok (s', t) := by
  have hI := init_inv ⟨27, 1, 1, 1⟩ (fun i => i) (fun i hi => hi) (fun i _ j _ e => e)
  have hb : 25 ∈ neigh 3 26 := by decide
  have hlt : ∀ a b, b ∈ neigh 3 a → b < 27 := by
    intro a b h
    unfold neigh at h
    rcases List.mem_append.1 h with h | h
    · exact ((mem_neighbours 3 a b).1 h).1
    · rw [List.eq_of_mem_replicate h]; decide
  obtain ⟨s', t, h, _⟩ := step_ok ⟨27, 1, 1, 1⟩ ⟨by decide, by decide⟩ (neigh 3) hlt 1 (fun _ => 1) (fun _ => 1) (fun _ => one_pos) E
    (1 / 2) (1 / 2) (by norm_num) (by norm_num) (by norm_num) (by norm_num) _ hI 26 25 ⟨0, by decide, rfl⟩ hb (by decide)
  exact ⟨s', t, h⟩
example : step ⟨1, 1, 0, 0⟩ (neigh 1) 1 (fun _ => 1) (fun _ => 1) (fun _ => 0) (1 / 2) (1 / 2) (init ⟨1, 1, 0, 0⟩ fun i => i)
    = .error .index :=
  step_stuck ⟨1, 1, 0, 0⟩ ⟨by decide, by decide⟩ (neigh 1) 1 _ _ _ _ _ _
    (init_inv _ _ (fun i hi => hi) (fun i _ j _ e => e)) (fun a b _ hb => by
      have h0 : neigh 1 = fun a => neigh 1 a := rfl
      have : b = 0 := by
        unfold neigh at hb
        rcases List.mem_append.1 hb with h | h
        · have := ((mem_neighbours 1 a b).1 h).1; omega
        · exact List.eq_of_mem_replicate h
      subst this; decide)

end Verif.Kmc
