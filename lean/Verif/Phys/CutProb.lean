import Verif.Phys.CutSum

/-!
# Which particle follows which in a cutting

In a cycle `(a, b)` every particle is followed by the next one, and the last one by the first.
-/

namespace Verif.Cut

open Finset

/-- In the cutting `bs` the particle `l` is followed by the particle `u`. -/
def follows (bs : List (ℕ × ℕ)) (l u : ℕ) : Bool :=
  bs.any (fun b => (decide (b.1 ≤ l) && decide (l < b.2) && decide (u = l + 1))
    || (decide (b.2 = l) && decide (b.1 = u)))

theorem follows_iff (bs : List (ℕ × ℕ)) (l u : ℕ) : follows bs l u = true ↔
    ∃ b ∈ bs, (b.1 ≤ l ∧ l < b.2 ∧ u = l + 1) ∨ (b.2 = l ∧ b.1 = u) := by
  unfold follows
  rw [List.any_eq_true]
  simp [and_assoc]

theorem isCutting_le {l m : ℕ} {bs : List (ℕ × ℕ)} (h : IsCutting l m bs) :
    l ≤ m ∧ ∀ b ∈ bs, l ≤ b.1 ∧ b.1 ≤ b.2 ∧ b.2 < m := by
  induction h with
  | nil l => exact ⟨le_refl _, by intro b hb; cases hb⟩
  | cons h hv t ih =>
    refine ⟨by omega, ?_⟩
    intro b hb
    rcases List.mem_cons.1 hb with rfl | hb
    · exact ⟨le_refl _, h, hv⟩
    · have := ih.2 b hb
      exact ⟨by omega, this.2.1, this.2.2⟩

/-- A particle belongs to one group only. -/
theorem isCutting_unique {l m : ℕ} {bs : List (ℕ × ℕ)} (h : IsCutting l m bs) :
    ∀ b ∈ bs, ∀ b' ∈ bs, ∀ k, b.1 ≤ k → k ≤ b.2 → b'.1 ≤ k → k ≤ b'.2 → b = b' := by
  induction h with
  | nil l => intro b hb; cases hb
  | cons h hv t ih =>
    intro b hb b' hb' k h1 h2 h3 h4
    rcases List.mem_cons.1 hb with rfl | hb
    · rcases List.mem_cons.1 hb' with rfl | hb'
      · rfl
      · have := (isCutting_le t).2 b' hb'
        simp only at h2
        omega
    · rcases List.mem_cons.1 hb' with rfl | hb'
      · have := (isCutting_le t).2 b hb
        simp only at h4
        omega
      · exact ih b hb b' hb' k h1 h2 h3 h4

/-- Every particle belongs to some group. -/
theorem isCutting_exists {l m : ℕ} {bs : List (ℕ × ℕ)} (h : IsCutting l m bs) :
    ∀ k, l ≤ k → k < m → ∃ b ∈ bs, b.1 ≤ k ∧ k ≤ b.2 := by
  induction h with
  | nil l => intro k h1 h2; omega
  | @cons l v m bs h hv t ih =>
    intro k h1 h2
    by_cases hk : k ≤ v
    · exact ⟨(l, v), by simp, h1, hk⟩
    · obtain ⟨b, hb, hb1⟩ := ih k (by omega) h2
      exact ⟨b, by simp [hb], hb1⟩

/-- Every particle is followed by exactly one particle. -/
theorem follows_unique {N : ℕ} {bs : List (ℕ × ℕ)} (h : IsCutting 0 N bs) (l : ℕ) (hl : l < N) :
    ∃ u, u < N ∧ follows bs l u = true ∧ ∀ u', follows bs l u' = true → u' = u := by
  obtain ⟨b, hb, h1, h2⟩ := isCutting_exists h l (Nat.zero_le _) hl
  have hb' := (isCutting_le h).2 b hb
  rcases Nat.lt_or_ge l b.2 with hlt | hge
  · refine ⟨l + 1, by omega, (follows_iff _ _ _).2 ⟨b, hb, Or.inl ⟨h1, hlt, rfl⟩⟩, ?_⟩
    intro u' hu'
    obtain ⟨b', hb'', hc⟩ := (follows_iff _ _ _).1 hu'
    rcases hc with ⟨_, _, h⟩ | ⟨h5, h6⟩
    · exact h
    · have h3 := (isCutting_le h).2 b' hb''
      have := isCutting_unique h b hb b' hb'' l h1 h2 (by omega) (by omega)
      subst this; omega
  · refine ⟨b.1, by omega, (follows_iff _ _ _).2 ⟨b, hb, Or.inr ⟨by omega, rfl⟩⟩, ?_⟩
    intro u' hu'
    obtain ⟨b', hb'', hc⟩ := (follows_iff _ _ _).1 hu'
    have h3 := (isCutting_le h).2 b' hb''
    rcases hc with ⟨h4, h5, h6⟩ | ⟨h5, h6⟩
    · have := isCutting_unique h b hb b' hb'' l h1 h2 (by omega) (by omega)
      subst this; omega
    · have := isCutting_unique h b hb b' hb'' l h1 h2 (by omega) (by omega)
      subst this; exact h6.symm

section
variable {R : Type} [CommRing R]

/-- Sum over all the cuttings of any function of them. -/
def sumC (f : List (ℕ × ℕ) → R) (l m : ℕ) : R := ((cuttings l (m - l)).map f).sum

theorem sumC_self (f : List (ℕ × ℕ) → R) (l : ℕ) : sumC f l l = f [] := by
  unfold sumC
  rw [Nat.sub_self, cuttings]
  simp

theorem sumC_first (f : List (ℕ × ℕ) → R) (l m : ℕ) (h : l < m) :
    sumC f l m = ∑ p ∈ Ico l m, sumC (fun bs => f ((l, p) :: bs)) (p + 1) m := by
  obtain ⟨n, rfl⟩ : ∃ n, m = l + (n + 1) := ⟨m - l - 1, by omega⟩
  unfold sumC
  have e0 : l + (n + 1) - l = n + 1 := by omega
  rw [e0, cuttings, List.map_flatMap, sum_flatMap, sum_map_range, sum_Ico_eq_sum_range, e0]
  refine sum_congr rfl (fun k hk => ?_)
  rw [mem_range] at hk
  have e1 : l + (n + 1) - (l + k + 1) = n - k := by omega
  rw [e1, List.map_map]
  congr 1

theorem sumC_congr (f f' : List (ℕ × ℕ) → R) (l m : ℕ) (hlm : l ≤ m)
    (h : ∀ bs, IsCutting l m bs → f bs = f' bs) : sumC f l m = sumC f' l m := by
  unfold sumC
  congr 1
  refine List.map_congr_left (fun bs hbs => h bs ?_)
  have := (mem_cuttings (m - l) l bs).1 hbs
  rwa [show l + (m - l) = m from by omega] at this

theorem sumC_mul (a : R) (f : List (ℕ × ℕ) → R) (l m : ℕ) :
    sumC (fun bs => a * f bs) l m = a * sumC f l m := by
  unfold sumC
  rw [List.sum_map_mul_left]

theorem sumC_zero (l m : ℕ) : sumC (fun _ => (0 : R)) l m = 0 := by
  unfold sumC
  simp

theorem sumC_add (f f' : List (ℕ × ℕ) → R) (l m : ℕ) :
    sumC (fun bs => f bs + f' bs) l m = sumC f l m + sumC f' l m := by
  unfold sumC
  rw [List.sum_map_add]

theorem sumC_sum {ι : Type} (s : Finset ι) (f : ι → List (ℕ × ℕ) → R) (l m : ℕ) :
    sumC (fun bs => ∑ i ∈ s, f i bs) l m = ∑ i ∈ s, sumC (f i) l m := by
  classical
  induction s using Finset.induction_on with
  | empty => simp [sumC_zero]
  | insert a s ha ih =>
    rw [Finset.sum_insert ha, ← ih, ← sumC_add]
    congr 1
    funext bs
    rw [Finset.sum_insert ha]

theorem W_eq_sumC (g : ℕ → ℕ → R) (l m : ℕ) : W g l m = sumC (weight g) l m := rfl

/-- Total weight of the cuttings that have the group `(u, p)`. -/
theorem sumC_mem (g : ℕ → ℕ → R) (N u p : ℕ) (hup : u ≤ p) (hp : p < N) : ∀ n l, u - l = n → l ≤ u →
    sumC (fun bs => weight g bs * if (u, p) ∈ bs then 1 else 0) l N
      = W g l u * g u p * W g (p + 1) N := by
  intro n
  induction n using Nat.strong_induction_on with
  | _ n ih =>
    intro l hn hl
    rw [sumC_first _ l N (by omega)]
    rcases Nat.eq_or_lt_of_le hl with he | hlt
    · subst he
      rw [W_self, one_mul, Finset.sum_eq_single_of_mem p (mem_Ico.2 ⟨hup, hp⟩)]
      · rw [W_eq_sumC, ← sumC_mul]
        refine sumC_congr _ _ _ _ (by omega) (fun bs _ => ?_)
        rw [if_pos (by simp), mul_one]
        rfl
      · intro p' hp' hne
        rw [mem_Ico] at hp'
        refine Eq.trans (sumC_congr _ (fun _ => 0) _ _ (by omega) (fun bs hbs => ?_)) (sumC_zero _ _)
        rw [if_neg, mul_zero]
        intro hm
        rcases List.mem_cons.1 hm with h | h
        · exact hne (by simp at h; omega)
        · have := (isCutting_le hbs).2 _ h
          simp only at this
          omega
    · have e : ∀ p' ∈ Ico l N, sumC (fun bs => weight g ((l, p') :: bs)
            * if (u, p) ∈ (l, p') :: bs then 1 else 0) (p' + 1) N
          = if p' < u then g l p' * W g (p' + 1) u * (g u p * W g (p + 1) N) else 0 := by
        intro p' hp'
        rw [mem_Ico] at hp'
        by_cases h : p' < u
        · rw [if_pos h]
          have := ih (u - (p' + 1)) (by omega) (p' + 1) rfl (by omega)
          rw [mul_assoc, ← mul_assoc (W g (p' + 1) u), ← this, ← sumC_mul]
          refine sumC_congr _ _ _ _ (by omega) (fun bs _ => ?_)
          have hmem : ((u, p) ∈ (l, p') :: bs) ↔ (u, p) ∈ bs := by
            rw [List.mem_cons]
            constructor
            · rintro (h | h)
              · simp at h; omega
              · exact h
            · exact Or.inr
          simp only [hmem]
          rw [show weight g ((l, p') :: bs) = g l p' * weight g bs from rfl, mul_assoc]
        · rw [if_neg h]
          refine Eq.trans (sumC_congr _ (fun _ => 0) _ _ (by omega) (fun bs hbs => ?_)) (sumC_zero _ _)
          rw [if_neg, mul_zero]
          intro hm
          rcases List.mem_cons.1 hm with h' | h'
          · simp at h'; omega
          · have := (isCutting_le hbs).2 _ h'
            simp only at this
            omega
      rw [sum_congr rfl e, ← Finset.sum_filter]
      have hf : (Ico l N).filter (fun p' => p' < u) = Ico l u := by
        ext x; simp only [mem_filter, mem_Ico]; omega
      rw [hf, ← Finset.sum_mul, ← W_first g l u hlt, mul_assoc]

theorem sumC_block (g : ℕ → ℕ → R) (N u p : ℕ) (hup : u ≤ p) (hp : p < N) :
    sumC (fun bs => weight g bs * if (u, p) ∈ bs then 1 else 0) 0 N = block g N u p :=
  sumC_mem g N u p hup hp u 0 (by omega) (by omega)

/-- Total weight of the cuttings in which `l` is followed by `u ≤ l`. -/
theorem sumC_follows_back (g : ℕ → ℕ → R) (N l u : ℕ) (hul : u ≤ l) (hl : l < N) :
    sumC (fun bs => weight g bs * if follows bs l u = true then 1 else 0) 0 N = block g N u l := by
  rw [← sumC_block g N u l hul hl]
  refine sumC_congr _ _ _ _ (by omega) (fun bs hbs => ?_)
  have : follows bs l u = true ↔ (u, l) ∈ bs := by
    rw [follows_iff]
    constructor
    · rintro ⟨b, hb, ⟨_, _, h⟩ | ⟨h1, h2⟩⟩
      · omega
      · have : b = (u, l) := Prod.ext h2 h1
        rwa [this] at hb
    · intro h; exact ⟨_, h, Or.inr ⟨rfl, rfl⟩⟩
  simp only [this]

/-- Total weight of the cuttings in which `l` is followed by `l + 1`. -/
theorem sumC_follows_next (g : ℕ → ℕ → R) (N l : ℕ) (hl : l < N) :
    sumC (fun bs => weight g bs * if follows bs l (l + 1) = true then 1 else 0) 0 N
      = ∑ u ∈ range (l + 1), ∑ p ∈ Ico (l + 1) N, block g N u p := by
  have e : ∑ u ∈ range (l + 1), ∑ p ∈ Ico (l + 1) N, block g N u p
      = ∑ x ∈ (range (l + 1)) ×ˢ (Ico (l + 1) N),
        sumC (fun bs => weight g bs * if x ∈ bs then 1 else 0) 0 N := by
    rw [Finset.sum_product]
    refine sum_congr rfl (fun u hu => sum_congr rfl (fun p hp => ?_))
    rw [mem_range] at hu
    rw [mem_Ico] at hp
    exact (sumC_block g N u p (by omega) (by omega)).symm
  rw [e, ← sumC_sum]
  refine sumC_congr _ _ _ _ (by omega) (fun bs hbs => ?_)
  rw [← Finset.mul_sum]
  congr 1
  by_cases h : follows bs l (l + 1) = true
  · rw [if_pos h]
    obtain ⟨b, hb, hc⟩ := (follows_iff _ _ _).1 h
    have hb' := (isCutting_le hbs).2 b hb
    have hc' : b.1 ≤ l ∧ l < b.2 := by
      rcases hc with ⟨h1, h2, _⟩ | ⟨h1, h2⟩
      · exact ⟨h1, h2⟩
      · omega
    rw [Finset.sum_eq_single_of_mem b]
    · rw [if_pos hb]
    · rw [mem_product, mem_range, mem_Ico]; omega
    · intro b' hm hne
      rw [mem_product, mem_range, mem_Ico] at hm
      rw [if_neg]
      intro hb''
      exact hne (isCutting_unique hbs b' hb'' b hb l (by omega) (by omega) (by omega) (by omega))
  · rw [if_neg h]
    symm
    apply Finset.sum_eq_zero
    intro b hm
    rw [mem_product, mem_range, mem_Ico] at hm
    rw [if_neg]
    intro hb
    exact h ((follows_iff _ _ _).2 ⟨b, hb, Or.inl ⟨by omega, by omega, rfl⟩⟩)

end

end Verif.Cut
