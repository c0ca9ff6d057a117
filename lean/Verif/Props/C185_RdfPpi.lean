import Verif.Tools.RdfPpi
import Mathlib.Algebra.BigOperators.Group.List.Basic
import Mathlib.Data.List.Induction
import Mathlib.Tactic.Ring
import Mathlib.Tactic.FieldSimp
import Mathlib.Tactic.Linarith
import Mathlib.Tactic.Positivity
import Mathlib.Algebra.Order.Ring.Pow
import Mathlib.Algebra.BigOperators.Field

/-! C185: radial distribution functions with perturbed path integrals. -/

namespace Verif.RdfPpi

open Finset

/-! ### Specification -/

/-- The distance of a pair, in the closest image. -/
noncomputable def dist (S : Setup) (x : Frame) (p : ℕ × ℕ × ℕ) : ℝ :=
  len (S.mic (fun k => x.x1 p.1 p.2.1 k - x.x2 p.1 p.2.2 k))

/-- The distance is in the range asked for. -/
def InRange (S : Setup) (d : ℝ) : Prop := S.rmin < d ∧ d < S.rmax

/-- The distance is in the range and between the edges of the bin `i`. -/
def InBin (S : Setup) (d : ℝ) (i : ℕ) : Prop :=
  InRange S d ∧ S.rmin + i * S.dr ≤ d ∧ d < S.rmin + (i + 1) * S.dr

open Classical in
/-- The pairs of all beads in the bin `i`. -/
noncomputable def count (S : Setup) (x : Frame) (i : ℕ) : ℕ :=
  (pairs S x).countP fun p => decide (InBin S (dist S x p) i)

open Classical in
/-- The pairs of all beads in the range. -/
noncomputable def countAll (S : Setup) (x : Frame) : ℕ :=
  (pairs S x).countP fun p => decide (InRange S (dist S x p))

/-- There are bins and the range is not empty. -/
def Valid (S : Setup) : Prop := 0 < S.nbins ∧ S.rmin < S.rmax

theorem dr_pos {S : Setup} (h : Valid S) : 0 < S.dr :=
  div_pos (by linarith [h.2]) (by exact_mod_cast h.1)

/-! ### One pair -/

/-- A distance in the range belongs to one bin, and this is the one the program finds. -/
theorem bin_iff {S : Setup} (h : Valid S) {d : ℝ} (hd : InRange S d) (i : ℕ) :
    ⌊(d - S.rmin) / S.dr⌋₊ = i ↔ InBin S d i := by
  have hr := dr_pos h
  have h0 : 0 ≤ (d - S.rmin) / S.dr := div_nonneg (by linarith [hd.1]) hr.le
  rw [Nat.floor_eq_iff h0, le_div_iff₀ hr, div_lt_iff₀ hr]
  constructor
  · rintro ⟨h1, h2⟩
    exact ⟨hd, by linarith, by linarith⟩
  · rintro ⟨_, h1, h2⟩
    exact ⟨by linarith, by linarith⟩

/-- The bin is one of those there are. -/
theorem bin_lt {S : Setup} (h : Valid S) {d : ℝ} (hd : InRange S d) :
    ⌊(d - S.rmin) / S.dr⌋₊ < S.nbins := by
  have hr := dr_pos h
  have h0 : 0 ≤ (d - S.rmin) / S.dr := div_nonneg (by linarith [hd.1]) hr.le
  rw [Nat.floor_lt h0, div_lt_iff₀ hr]
  have hn : (S.nbins : ℝ) ≠ 0 := by exact_mod_cast h.1.ne'
  have : (S.nbins : ℝ) * S.dr = S.rmax - S.rmin := by
    unfold Setup.dr
    field_simp
  rw [this]
  linarith [hd.2]

/-- The rate at which the distance of a pair grows, in bins, per unit of `1 / mass`. -/
noncomputable def rate (S : Setup) (x : Frame) (p : ℕ × ℕ × ℕ) : ℝ :=
  (∑ k, (x.f1 p.1 p.2.1 k / S.mass1 - x.f2 p.1 p.2.2 k / S.mass2)
    * S.mic (fun k => x.x1 p.1 p.2.1 k - x.x2 p.1 p.2.2 k) k) / (dist S x p * S.dr)

open Classical in
/-- What a pair adds to the histogram of the derivative in the bin `i`. -/
noncomputable def flow (S : Setup) (x : Frame) (i : ℕ) (p : ℕ × ℕ × ℕ) : ℝ :=
  if 0.00001 < dist S x p then
    rate S x p * ((if ∃ j, i = j + 1 ∧ InBin S (dist S x p) j then 1 else 0)
      - (if InBin S (dist S x p) (i + 1) then 1 else 0))
  else 0

theorem bump_at (a : ℕ → ℝ) (i : ℕ) (y : ℝ) (j : ℕ) :
    bump a i y j = a j + (if j = i then y else 0) := by
  unfold bump
  split_ifs <;> simp

open Classical in
theorem pair_step {S : Setup} (h : Valid S) (x : Frame) (s : Acc) (p : ℕ × ℕ × ℕ) (i : ℕ) :
    (pair S x s p).g i = s.g i + norm S x * (if InBin S (dist S x p) i then 1 else 0) ∧
    (pair S x s p).f2g i = s.f2g i + norm S x * x.ff * (if InBin S (dist S x p) i then 1 else 0) ∧
    (i < S.nbins → (pair S x s p).fg i = s.fg i + norm S x * flow S x i p) ∧
    (pair S x s p).f2 = s.f2 := by
  unfold pair
  dsimp only
  have hdist : len (S.mic (fun k => x.x1 p.1 p.2.1 k - x.x2 p.1 p.2.2 k)) = dist S x p := rfl
  rw [hdist]
  by_cases hd : dist S x p < S.rmax ∧ S.rmin < dist S x p
  · have hr : InRange S (dist S x p) := ⟨hd.2, hd.1⟩
    have hb := bin_iff h hr
    have hlt := bin_lt h hr
    rw [if_pos hd]
    generalize hig : ⌊(dist S x p - S.rmin) / S.dr⌋₊ = ig at hb hlt
    have hg : ∀ (a : ℕ → ℝ) (y : ℝ), bump a ig y i = a i + y * (if InBin S (dist S x p) i then 1 else 0) := by
      intro a y
      rw [bump_at]
      by_cases e : ig = i
      · rw [if_pos e.symm, if_pos ((hb i).1 e), mul_one]
      · rw [if_neg (Ne.symm e), if_neg (fun q => e ((hb i).2 q)), mul_zero]
    by_cases ht : (0.00001 : ℝ) < dist S x p
    · rw [if_pos ht]
      refine ⟨by dsimp only; rw [hg]; ring, by dsimp only; rw [hg]; ring, ?_, rfl⟩
      intro hi
      dsimp only
      have hrate : (∑ k, (x.f1 p.1 p.2.1 k / S.mass1 - x.f2 p.1 p.2.2 k / S.mass2)
          * S.mic (fun k => x.x1 p.1 p.2.1 k - x.x2 p.1 p.2.2 k) k) / (dist S x p * S.dr) = rate S x p := rfl
      rw [hrate]
      have h1 : (∃ j, i = j + 1 ∧ InBin S (dist S x p) j) ↔ i = ig + 1 := by
        constructor
        · rintro ⟨j, rfl, hj⟩
          rw [(hb j).2 hj]
        · intro e
          exact ⟨ig, e, (hb ig).1 rfl⟩
      have h2 : InBin S (dist S x p) (i + 1) ↔ ig = i + 1 := (hb (i + 1)).symm
      unfold flow
      rw [if_pos ht]
      have a1 : (if (∃ j, i = j + 1 ∧ InBin S (dist S x p) j) then (1 : ℝ) else 0)
          = if i = ig + 1 then 1 else 0 := by
        by_cases e : i = ig + 1
        · rw [if_pos e, if_pos (h1.2 e)]
        · rw [if_neg e, if_neg (fun q => e (h1.1 q))]
      have a2 : (if InBin S (dist S x p) (i + 1) then (1 : ℝ) else 0)
          = if ig = i + 1 then 1 else 0 := by
        by_cases e : ig = i + 1
        · rw [if_pos e, if_pos (h2.2 e)]
        · rw [if_neg e, if_neg (fun q => e (h2.1 q))]
      rw [a1, a2]
      have lower : ∀ a : ℕ → ℝ, (if 0 < ig then bump a (ig - 1) (-(rate S x p * norm S x)) else a) i
          = a i - (rate S x p * norm S x) * (if ig = i + 1 then 1 else 0) := by
        intro a
        by_cases h0 : 0 < ig
        · rw [if_pos h0, bump_at]
          by_cases e : ig = i + 1
          · rw [if_pos (by omega), if_pos e]; ring
          · rw [if_neg (by omega), if_neg e]; ring
        · rw [if_neg h0, if_neg (by omega)]; ring
      by_cases hu : ig + 1 < S.nbins
      · rw [if_pos hu, bump_at, lower]
        by_cases e : i = ig + 1
        · rw [if_pos e, if_pos e, if_neg (by omega)]; ring
        · rw [if_neg e, if_neg e]; ring
      · rw [if_neg hu, lower, if_neg (by omega : ¬ i = ig + 1)]; ring
    · rw [if_neg ht]
      refine ⟨by dsimp only; rw [hg]; ring, by dsimp only; rw [hg]; ring, ?_, rfl⟩
      intro _
      unfold flow
      rw [if_neg ht]
      simp
  · rw [if_neg hd]
    have hn : ∀ j, ¬ InBin S (dist S x p) j := fun j q => hd ⟨q.1.2, q.1.1⟩
    refine ⟨by rw [if_neg (hn i)]; ring, by rw [if_neg (hn i)]; ring, ?_, rfl⟩
    intro _
    have hex : ¬ ∃ j, i = j + 1 ∧ InBin S (dist S x p) j := by
      rintro ⟨j, _, hj⟩
      exact hn j hj
    unfold flow
    rw [if_neg hex, if_neg (hn _)]
    simp

/-! ### One frame -/

/-- The histograms of a frame: the pairs in each bin, each with the weight of one over the number of
pairs; the same times the sum of the squared forces; and the flow between bins. -/
theorem frame_counts {S : Setup} (h : Valid S) (s : Acc) (x : Frame) (i : ℕ) :
    (addFrame S s x).g i = s.g i + norm S x * count S x i ∧
    (addFrame S s x).f2g i = s.f2g i + norm S x * x.ff * count S x i ∧
    (i < S.nbins → (addFrame S s x).fg i = s.fg i + norm S x * ((pairs S x).map (flow S x i)).sum) ∧
    (addFrame S s x).f2 = s.f2 + x.ff := by
  classical
  have key : ∀ (l : List (ℕ × ℕ × ℕ)) (a : Acc),
      (l.foldl (pair S x) a).g i = a.g i + norm S x * (l.countP fun p => decide (InBin S (dist S x p) i) : ℕ) ∧
      (l.foldl (pair S x) a).f2g i
        = a.f2g i + norm S x * x.ff * (l.countP fun p => decide (InBin S (dist S x p) i) : ℕ) ∧
      (i < S.nbins → (l.foldl (pair S x) a).fg i = a.fg i + norm S x * (l.map (flow S x i)).sum) ∧
      (l.foldl (pair S x) a).f2 = a.f2 := by
    intro l
    induction l with
    | nil => intro a; simp
    | cons p l ih =>
      intro a
      obtain ⟨i1, i2, i3, i4⟩ := ih (pair S x a p)
      obtain ⟨p1, p2, p3, p4⟩ := pair_step h x a p i
      rw [List.foldl_cons]
      refine ⟨?_, ?_, ?_, ?_⟩
      · rw [i1, p1, List.countP_cons]
        by_cases hb : InBin S (dist S x p) i <;> simp [hb] <;> ring
      · rw [i2, p2, List.countP_cons]
        by_cases hb : InBin S (dist S x p) i <;> simp [hb] <;> ring
      · intro hi
        rw [i3 hi, p3 hi, List.map_cons, List.sum_cons]
        ring
      · rw [i4, p4]
  obtain ⟨k1, k2, k3, k4⟩ := key (pairs S x) ⟨s.g, s.f2g, s.fg, s.f2 + x.ff⟩
  unfold addFrame count
  refine ⟨?_, ?_, k3, k4⟩
  · convert k1
  · convert k2

/-- Every pair in the range is in one of the bins. -/
theorem count_total {S : Setup} (h : Valid S) (x : Frame) :
    ∑ i ∈ range S.nbins, count S x i = countAll S x := by
  classical
  have key : ∀ l : List (ℕ × ℕ × ℕ),
      ∑ i ∈ range S.nbins, (l.countP fun p => decide (InBin S (dist S x p) i))
        = l.countP fun p => decide (InRange S (dist S x p)) := by
    intro l
    induction l with
    | nil => simp
    | cons p l ih =>
      simp only [List.countP_cons, Finset.sum_add_distrib, ih]
      congr 1
      by_cases hr : InRange S (dist S x p)
      · rw [Finset.sum_eq_single ⌊(dist S x p - S.rmin) / S.dr⌋₊]
        · simp [(bin_iff h hr _).1 rfl, hr]
        · intro j _ hj
          have : ¬ InBin S (dist S x p) j := fun q => hj ((bin_iff h hr j).2 q).symm
          simp [this]
        · intro hn
          exact absurd (Finset.mem_range.2 (bin_lt h hr)) hn
      · have : ∀ j, ¬ InBin S (dist S x p) j := fun j q => hr q.1
        simp [this, hr]
  have := key (pairs S x)
  unfold count countAll
  convert this

/-! ### All frames -/

/-- The mean over the frames. -/
noncomputable def mean (l : List Frame) (f : Frame → ℝ) : ℝ := (l.map f).sum / l.length

theorem acc_sum {S : Setup} (h : Valid S) (l : List Frame) (i : ℕ) (s : Acc) :
    (l.foldl (addFrame S) s).g i = s.g i + (l.map fun x => norm S x * count S x i).sum ∧
    (l.foldl (addFrame S) s).f2g i = s.f2g i + (l.map fun x => norm S x * x.ff * count S x i).sum ∧
    (i < S.nbins → (l.foldl (addFrame S) s).fg i
      = s.fg i + (l.map fun x => norm S x * ((pairs S x).map (flow S x i)).sum).sum) ∧
    (l.foldl (addFrame S) s).f2 = s.f2 + (l.map fun x => x.ff).sum := by
  induction l generalizing s with
  | nil => simp
  | cons x l ih =>
    obtain ⟨i1, i2, i3, i4⟩ := ih (addFrame S s x)
    obtain ⟨f1, f2, f3, f4⟩ := frame_counts h s x i
    simp only [List.foldl_cons, List.map_cons, List.sum_cons]
    refine ⟨by rw [i1, f1]; ring, by rw [i2, f2]; ring, fun hi => by rw [i3 hi, f3 hi]; ring, by rw [i4, f4]; ring⟩

/-- The last number of frames at which the files are written. -/
def last (xs : List Frame) : ℕ := 100 * (xs.length / 100)

/-- The frames that the files are about. -/
def used (S : Setup) (xs : List Frame) : List Frame := (xs.take (last xs)).drop S.skip

/-- One turn of the loop. -/
noncomputable def turn (S : Setup) (st : ℕ × Acc × Option (ℕ → Row)) (x : Frame) :
    ℕ × Acc × Option (ℕ → Row) :=
  let s' := if S.skip ≤ st.1 then addFrame S st.2.1 x else st.2.1
  (st.1 + 1, s', if S.skip < st.1 + 1 ∧ (st.1 + 1) % 100 = 0 then
    some (write S s' (st.1 + 1 - S.skip) x.vol) else st.2.2)

theorem loop_foldl (S : Setup) (xs : List Frame) (ifr : ℕ) (s : Acc) (file : Option (ℕ → Row)) :
    loop S ifr s file xs = (xs.foldl (turn S) (ifr, s, file)).2.2 := by
  induction xs generalizing ifr s file with
  | nil => rfl
  | cons x xs ih => rw [loop, List.foldl_cons, ih]; rfl

/-- The files hold the function of the frames up to the last multiple of one hundred, without those left
out, and do not exist when there are none. -/
theorem frames_used (S : Setup) (xs : List Frame) :
    run S xs = if S.skip < last xs then
      (xs[last xs - 1]?).map fun x => write S ((used S xs).foldl (addFrame S) Acc.zero) (last xs - S.skip) x.vol
      else none := by
  have key : ∀ xs : List Frame, xs.foldl (turn S) (0, Acc.zero, none) =
      (xs.length, (xs.drop S.skip).foldl (addFrame S) Acc.zero,
        if S.skip < last xs then
          (xs[last xs - 1]?).map fun x =>
            write S ((used S xs).foldl (addFrame S) Acc.zero) (last xs - S.skip) x.vol
        else none) := by
    intro xs
    induction xs using List.reverseRecOn with
    | nil => simp [last]
    | append_singleton xs x ih =>
      rw [List.foldl_append, ih, List.foldl_cons, List.foldl_nil, turn]
      dsimp only
      have hs : (if S.skip ≤ xs.length then
          addFrame S ((xs.drop S.skip).foldl (addFrame S) Acc.zero) x
          else (xs.drop S.skip).foldl (addFrame S) Acc.zero)
          = ((xs ++ [x]).drop S.skip).foldl (addFrame S) Acc.zero := by
        split_ifs with hk
        · rw [List.drop_append_of_le_length hk, List.foldl_append, List.foldl_cons, List.foldl_nil]
        · rw [List.drop_eq_nil_of_le (by omega), List.drop_eq_nil_of_le (by simp; omega)]
      rw [hs]
      have hlen : (xs ++ [x]).length = xs.length + 1 := by simp
      rw [hlen]
      congr 2
      by_cases h100 : (xs.length + 1) % 100 = 0
      · have hl : last (xs ++ [x]) = xs.length + 1 := by
          unfold last
          rw [hlen]
          omega
        rw [hl]
        by_cases hk : S.skip < xs.length + 1
        · rw [if_pos ⟨hk, h100⟩, if_pos hk]
          unfold used
          rw [hl, List.take_of_length_le (by simp)]
          simp
        · rw [if_neg (fun q => hk q.1), if_neg hk]
          have : ¬ S.skip < last xs := by
            unfold last
            omega
          rw [if_neg this]
      · have hl : last (xs ++ [x]) = last xs := by
          unfold last
          rw [hlen]
          omega
        have hle : last xs ≤ xs.length := by
          unfold last
          omega
        rw [if_neg (fun q => h100 q.2), hl]
        by_cases hk : S.skip < last xs
        · rw [if_pos hk, if_pos hk]
          unfold used
          rw [hl, List.take_append_of_le_length hle, List.getElem?_append_left (by omega)]
        · rw [if_neg hk, if_neg hk]
  unfold run
  rw [loop_foldl, key]

/-- A trajectory of fewer than one hundred frames gives no output at all. -/
theorem short_nothing (S : Setup) (xs : List Frame) (h : xs.length < 100) : run S xs = none := by
  rw [frames_used]
  have : last xs = 0 := by
    unfold last
    omega
  rw [this, if_neg (by omega)]

/-- All frames are used when their number is a multiple of one hundred. -/
theorem used_all_partial (S : Setup) (xs : List Frame) (h : xs.length % 100 = 0) :
    used S xs = xs.drop S.skip := by
  have : last xs = xs.length := by
    unfold last
    omega
  unfold used
  rw [this, List.take_of_length_le (le_refl _)]

/-- Otherwise the frames at the end play no part. -/
theorem tail_ignored (S : Setup) (xs ys : List Frame) (h : xs.length % 100 = 0) (hy : ys.length < 100) :
    run S (xs ++ ys) = run S xs := by
  have e : last (xs ++ ys) = xs.length := by
    unfold last
    rw [List.length_append]
    omega
  have e' : last xs = xs.length := by
    unfold last
    omega
  rw [frames_used, frames_used, e, e']
  by_cases hk : S.skip < xs.length
  · rw [if_pos hk, if_pos hk]
    unfold used
    rw [e, e', List.take_append_of_le_length (le_refl _), List.getElem?_append_left (by omega)]
  · rw [if_neg hk, if_neg hk]

/-! ### What the numbers mean -/

theorem shell_pos {S : Setup} (h : Valid S) (i : ℕ) : 0 < shell S i := by
  have hr := dr_pos h
  unfold shell
  have : S.mid i - 0.5 * S.dr < S.mid i + 0.5 * S.dr := by
    have : (0 : ℝ) < 0.5 * S.dr := by positivity
    linarith
  have := (Odd.strictMono_pow (R := ℝ) (n := 3) (by decide)) this
  simpa using this

/-- The volume of the shell between the edges of a bin. -/
theorem shell_edges (S : Setup) (i : ℕ) :
    shell S i = (S.rmin + (i + 1) * S.dr) ^ 3 - (S.rmin + i * S.dr) ^ 3 := by
  unfold shell Setup.mid
  ring

theorem list_mean (l : List Frame) (f : Frame → ℝ) : (l.map f).sum * (1 / (l.length : ℝ)) = mean l f := by
  unfold mean
  ring

theorem rdf_mean {S : Setup} (h : Valid S) (l : List Frame) (vol : ℝ) (hv : vol ≠ 0)
    (i : ℕ) :
    (write S (l.foldl (addFrame S) Acc.zero) l.length vol i).rdf * (4 * Real.pi / 3 * shell S i) / vol
      = mean l (fun x => norm S x * count S x i) / S.nbeads := by
  obtain ⟨e, -⟩ := acc_sum h l i Acc.zero
  have hs := (shell_pos h i).ne'
  have hp := Real.pi_ne_zero
  unfold write
  dsimp only
  rw [e, ← list_mean]
  simp only [Acc.zero, zero_add]
  generalize (l.map fun x => norm S x * count S x i).sum = T
  field_simp

/-- The number of pairs that the plain function stands for, summed over the bins, is the mean number of
pairs in the range, over beads and frames, divided by the number of pairs. -/
theorem rdf_total {S : Setup} (h : Valid S) (l : List Frame) (vol : ℝ) (hv : vol ≠ 0) :
    ∑ i ∈ range S.nbins,
      (write S (l.foldl (addFrame S) Acc.zero) l.length vol i).rdf * (4 * Real.pi / 3 * shell S i) / vol
      = mean l (fun x => norm S x * countAll S x) / S.nbeads := by
  rw [Finset.sum_congr rfl fun i _ => rdf_mean h l vol hv i, ← Finset.sum_div]
  congr 1
  unfold mean
  rw [← Finset.sum_div]
  congr 1
  clear hv
  induction l with
  | nil => simp
  | cons x l ih =>
    simp only [List.map_cons, List.sum_cons, Finset.sum_add_distrib, ih]
    congr 1
    rw [← Finset.mul_sum, ← Nat.cast_sum, count_total h]

/-- The correction is the covariance of the number of pairs in the bin with the squared forces and the
mean flow into the bin. -/
theorem correction {S : Setup} (h : Valid S) (l : List Frame) (vol : ℝ)
    (hv : vol ≠ 0) (i : ℕ) (hi : i < S.nbins) :
    (write S (l.foldl (addFrame S) Acc.zero) l.length vol i).rdfQ * (4 * Real.pi / 3 * shell S i) / vol
      = mean l (fun x => norm S x * count S x i) / S.nbeads
        - S.hbar ^ 2 / (24 * (S.nbeads : ℝ) ^ 3 * (S.temp * S.kb) ^ 3)
          * (mean l (fun x => x.ff * (norm S x * count S x i)) / S.nbeads
            - mean l (fun x => x.ff) * (mean l (fun x => norm S x * count S x i) / S.nbeads))
        - S.hbar ^ 2 / (24 * (S.nbeads : ℝ) ^ 3 * (S.temp * S.kb) ^ 2)
          * mean l (fun x => norm S x * ((pairs S x).map (flow S x i)).sum) := by
  obtain ⟨e1, e2, e3, e4⟩ := acc_sum h l i Acc.zero
  have hs := (shell_pos h i).ne'
  have hp := Real.pi_ne_zero
  have hc : (fun x : Frame => x.ff * (norm S x * count S x i)) = fun x => norm S x * x.ff * count S x i := by
    funext x
    ring
  unfold write
  dsimp only
  rw [e1, e2, e3 hi, e4, hc, ← list_mean, ← list_mean, ← list_mean, ← list_mean]
  simp only [Acc.zero, zero_add]
  generalize (l.map fun x => norm S x * count S x i).sum = T
  generalize (l.map fun x => norm S x * x.ff * count S x i).sum = T2
  generalize (l.map fun x => norm S x * ((pairs S x).map (flow S x i)).sum).sum = T3
  generalize (l.map fun x : Frame => x.ff).sum = T4
  have cancel : ∀ X : ℝ, vol / (4 * Real.pi / 3) * X / shell S i * (4 * Real.pi / 3 * shell S i) / vol = X := by
    intro X
    field_simp
  rw [cancel]
  have hb : S.hbar ^ 2 / (12 * (S.nbeads : ℝ) ^ 3 * (S.temp * S.kb) ^ 2)
      = 2 * (S.hbar ^ 2 / (24 * (S.nbeads : ℝ) ^ 3 * (S.temp * S.kb) ^ 2)) := by
    rw [show (24 : ℝ) * (S.nbeads : ℝ) ^ 3 * (S.temp * S.kb) ^ 2
      = 2 * (12 * (S.nbeads : ℝ) ^ 3 * (S.temp * S.kb) ^ 2) by ring, ← mul_div_assoc,
      mul_div_mul_left _ _ (two_ne_zero)]
  rw [hb]
  ring

/-- The pairs of atoms of a frame: each bead has the same, an atom with itself among them when the two
species are the same. -/
theorem pairs_length (S : Setup) (x : Frame) : (pairs S x).length = S.nbeads * (x.nat1 * x.nat2) := by
  unfold pairs
  simp [List.length_flatMap]

/-- An atom is not counted with itself as long as the range does not reach below zero. -/
theorem no_self (S : Setup) (x : Frame) (b i : ℕ) (hsame : x.x1 b i = x.x2 b i)
    (hmic : S.mic (fun _ => 0) = fun _ => 0) (h0 : 0 ≤ S.rmin) :
    ¬ InRange S (dist S x (b, i, i)) := by
  rintro ⟨h1, -⟩
  have : dist S x (b, i, i) = 0 := by
    unfold dist
    dsimp only
    rw [hsame]
    simp [hmic, len]
  rw [this] at h1
  linarith

/-- Two atoms at distance one: in the second of two bins. -/
example : Valid ⟨2, 0, 2, 1, 2, id, 1, 0, 1, 1, 1⟩ ∧ InBin ⟨2, 0, 2, 1, 2, id, 1, 0, 1, 1, 1⟩ 1 1 := by
  refine ⟨⟨by decide, by norm_num⟩, ⟨by norm_num, by norm_num⟩, ?_, ?_⟩ <;>
    norm_num [Setup.dr]

end Verif.RdfPpi
