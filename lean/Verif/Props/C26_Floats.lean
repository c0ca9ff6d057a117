import Verif.Io.Values
import Mathlib.Tactic.Linarith
import Mathlib.Tactic.FieldSimp
import Mathlib.Tactic.Ring
import Mathlib.Algebra.Order.Field.Basic
import Mathlib.Algebra.Order.Field.Power
/-!
# C26 (numbers): nine digits are kept, and they are kept for ever

`%16.8e` prints the decimal with nine significant digits nearest to the number. Reading that decimal with any rounding to a relative
precision of `2⁻⁵³` and printing again gives the same nine digits, so a number written to a checkpoint changes once at most: from the
first write on, any sequence of writes and reads gives the same text. The error of the first write is at most half a unit in the ninth
digit, and it does occur.
-/
namespace Verif.Values

/-- The number that a printed decimal denotes. -/
def Dec.val (d : Dec) : ℚ := (if d.neg then -1 else 1) * (d.m * (10 : ℚ) ^ (d.e - 8))

/-- `d` is a nearest decimal with nine significant digits to the positive number `x`: with `10^e ≤ x < 10^(e+1)`, `m` is an integer nearest
to `x / 10^(e-8)`, and if that is `10^9` the exponent is raised. Either integer may be taken on a tie. -/
def Nearest (x : ℚ) (m : Nat) (e : Int) : Prop :=
  ∃ (m0 : Nat) (e0 : Int), (10 : ℚ) ^ e0 ≤ x ∧ x < (10 : ℚ) ^ (e0 + 1) ∧ |x / (10 : ℚ) ^ (e0 - 8) - m0| ≤ 1 / 2 ∧
    (if m0 = 10 ^ 9 then m = 10 ^ 8 ∧ e = e0 + 1 else m = m0 ∧ e = e0)

/-- `d` is what `%16.8e` prints for `x`. -/
def Prints (x : ℚ) (d : Dec) : Prop :=
  (x = 0 ∧ d = ⟨false, 0, 0⟩) ∨ (0 < x ∧ d.neg = false ∧ Nearest x d.m d.e) ∨ (x < 0 ∧ d.neg = true ∧ Nearest (-x) d.m d.e)

/-- `x` is a reading of the decimal `d` to double precision. -/
def Reads (d : Dec) (x : ℚ) : Prop := |x - d.val| ≤ |d.val| / 2 ^ 53

theorem ten_pos (e : Int) : (0 : ℚ) < 10 ^ e := zpow_pos (by norm_num) e

theorem nearest_range {x : ℚ} {m : Nat} {e : Int} (h : Nearest x m e) : 10 ^ 8 ≤ m ∧ m < 10 ^ 9 := by
  obtain ⟨m0, e0, h1, h2, h3, h4⟩ := h
  have hp := ten_pos (e0 - 8)
  have hlo : (10 : ℚ) ^ 8 ≤ x / 10 ^ (e0 - 8) := by
    rw [le_div_iff₀ hp]
    have : (10 : ℚ) ^ 8 * 10 ^ (e0 - 8) = 10 ^ e0 := by
      rw [← zpow_natCast, ← zpow_add₀ (by norm_num)]; congr 1; push_cast; ring
    rw [this]; exact h1
  have hhi : x / 10 ^ (e0 - 8) < (10 : ℚ) ^ 9 := by
    rw [div_lt_iff₀ hp]
    have : (10 : ℚ) ^ 9 * 10 ^ (e0 - 8) = 10 ^ (e0 + 1) := by
      rw [← zpow_natCast, ← zpow_add₀ (by norm_num)]; congr 1; push_cast; ring
    rw [this]; exact h2
  rw [abs_le] at h3
  have a1 : (10 ^ 8 : ℚ) - 1 < (m0 : ℚ) := by linarith [h3.2]
  have a2 : (m0 : ℚ) < 10 ^ 9 + 1 := by linarith [h3.1]
  have b1 : 10 ^ 8 - 1 < m0 := by
    have : ((10 ^ 8 - 1 : Nat) : ℚ) < (m0 : ℚ) := by push_cast; linarith
    exact_mod_cast this
  have b2 : m0 < 10 ^ 9 + 1 := by exact_mod_cast a2
  split at h4
  · omega
  · omega

theorem nearest_stable {x : ℚ} {m : Nat} {e : Int} (h1 : 10 ^ 8 ≤ m) (h2 : m < 10 ^ 9)
    (hx : |x - m * (10 : ℚ) ^ (e - 8)| ≤ m * (10 : ℚ) ^ (e - 8) / 2 ^ 53) {m' : Nat} {e' : Int} (h : Nearest x m' e') : m' = m ∧ e' = e := by
  obtain ⟨m0, e0, a1, a2, a3, a4⟩ := h
  have hp := ten_pos (e - 8)
  -- the number in units of the last digit
  obtain ⟨y, hy⟩ : ∃ y, y = x / (10 : ℚ) ^ (e - 8) := ⟨_, rfl⟩
  have hxy : x = y * (10 : ℚ) ^ (e - 8) := by rw [hy]; field_simp
  have hm1 : ((10 ^ 8 : Nat) : ℚ) ≤ (m : ℚ) := by exact_mod_cast h1
  have hm2 : (m : ℚ) ≤ ((10 ^ 9 - 1 : Nat) : ℚ) := by
    have : m ≤ 10 ^ 9 - 1 := by omega
    exact_mod_cast this
  push_cast at hm1
  have hm2' : (m : ℚ) ≤ 999999999 := le_trans hm2 (by norm_num)
  have hym : |y - m| ≤ 1 / 1000000 := by
    have e1 : x - m * (10 : ℚ) ^ (e - 8) = (y - m) * (10 : ℚ) ^ (e - 8) := by rw [hxy]; ring
    rw [e1, abs_mul, abs_of_pos hp] at hx
    have e2 : (m : ℚ) * 10 ^ (e - 8) / 2 ^ 53 = (m / 2 ^ 53) * 10 ^ (e - 8) := by ring
    rw [e2] at hx
    have := le_of_mul_le_mul_right hx hp
    have h3 : (m : ℚ) / 2 ^ 53 ≤ 1 / 1000000 := by
      rw [div_le_iff₀ (by norm_num)]
      linarith
    linarith
  rw [abs_le] at hym
  have u1 : (10 : ℚ) ^ e = 10 ^ 8 * 10 ^ (e - 8) := by
    rw [← zpow_natCast, ← zpow_add₀ (by norm_num)]; congr 1; push_cast; ring
  have u2 : (10 : ℚ) ^ (e + 1) = 10 ^ 9 * 10 ^ (e - 8) := by
    rw [← zpow_natCast, ← zpow_add₀ (by norm_num)]; congr 1; push_cast; ring
  have u3 : (10 : ℚ) ^ (e - 1) = 10 ^ 7 * 10 ^ (e - 8) := by
    rw [← zpow_natCast, ← zpow_add₀ (by norm_num)]; congr 1; push_cast; ring
  -- the decade of x
  have hle : e0 ≤ e := by
    by_contra hc
    have : e + 1 ≤ e0 := by omega
    have hmono : (10 : ℚ) ^ (e + 1) ≤ 10 ^ e0 := zpow_le_zpow_right₀ (by norm_num) this
    have : 10 ^ 9 * (10 : ℚ) ^ (e - 8) ≤ y * 10 ^ (e - 8) := by rw [← u2, ← hxy]; linarith
    have := le_of_mul_le_mul_right this hp
    linarith
  have hge : e - 1 ≤ e0 := by
    by_contra hc
    have : e0 + 1 ≤ e - 1 := by omega
    have hmono : (10 : ℚ) ^ (e0 + 1) ≤ 10 ^ (e - 1) := zpow_le_zpow_right₀ (by norm_num) this
    have : y * (10 : ℚ) ^ (e - 8) < 10 ^ 7 * 10 ^ (e - 8) := by rw [← u3, ← hxy]; linarith
    have := lt_of_mul_lt_mul_right this hp.le
    linarith
  rw [abs_le] at a3
  by_cases he : e0 = e
  · subst he
    rw [← hy] at a3
    have c1 : (m0 : ℚ) < m + 1 := by linarith
    have c2 : (m : ℚ) < m0 + 1 := by linarith
    have d1 : m0 < m + 1 := by exact_mod_cast c1
    have d2 : m < m0 + 1 := by exact_mod_cast c2
    have : m0 = m := by omega
    subst this
    rw [if_neg (by omega)] at a4
    exact a4
  · have he' : e0 = e - 1 := by omega
    subst he'
    have hlt : x < 10 ^ e := by
      have e1 : e - 1 + 1 = e := by omega
      rw [e1] at a2; exact a2
    have hy8 : y < 10 ^ 8 := by
      have : y * (10 : ℚ) ^ (e - 8) < 10 ^ 8 * 10 ^ (e - 8) := by rw [← u1, ← hxy]; exact hlt
      exact lt_of_mul_lt_mul_right this hp.le
    have hm : m = 10 ^ 8 := by
      have : (m : ℚ) < ((10 ^ 8 + 1 : Nat) : ℚ) := by push_cast; linarith
      have : m < 10 ^ 8 + 1 := by exact_mod_cast this
      omega
    have hm' : (m : ℚ) = 10 ^ 8 := by rw [hm]; norm_num
    have e2 : x / (10 : ℚ) ^ (e - 1 - 8) = 10 * y := by
      have : (10 : ℚ) ^ (e - 8) = 10 * 10 ^ (e - 1 - 8) := by
        rw [← zpow_one_add₀ (by norm_num)]; congr 1; ring
      rw [hxy, this]
      have hq := (ten_pos (e - 1 - 8)).ne'
      field_simp
    rw [e2] at a3
    have c1 : (m0 : ℚ) < 10 ^ 9 + 1 := by linarith
    have c2 : (10 ^ 9 : ℚ) < m0 + 1 := by linarith
    have d1 : m0 < 10 ^ 9 + 1 := by exact_mod_cast c1
    have d2 : 10 ^ 9 < m0 + 1 := by exact_mod_cast c2
    have : m0 = 10 ^ 9 := by omega
    subst this
    simp only [if_true] at a4
    exact ⟨by rw [a4.1, hm], by rw [a4.2]; omega⟩

/-- From the second write on nothing changes: print, read to double precision, print again; the two texts are the same. -/
theorem second_write_same {x y : ℚ} {d d' : Dec} (h1 : Prints x d) (h2 : Reads d y) (h3 : Prints y d') : d' = d := by
  obtain ⟨neg, m, e⟩ := d
  obtain ⟨neg', m', e'⟩ := d'
  unfold Reads Dec.val at h2
  rcases h1 with ⟨_, hd⟩ | ⟨hx, hn, hd⟩ | ⟨hx, hn, hd⟩
  · simp only [Dec.mk.injEq] at hd
    obtain ⟨rfl, rfl, rfl⟩ := hd
    simp only [Bool.false_eq_true, if_false, Nat.cast_zero, zero_mul, mul_zero, sub_zero, abs_zero, zero_div] at h2
    have hy : y = 0 := abs_eq_zero.1 (le_antisymm h2 (abs_nonneg y))
    rcases h3 with ⟨_, h⟩ | ⟨h, _⟩ | ⟨h, _⟩
    · exact h
    · rw [hy] at h; exact absurd h (lt_irrefl _)
    · rw [hy] at h; exact absurd h (lt_irrefl _)
  · simp only at hn hd
    subst hn
    obtain ⟨r1, r2⟩ := nearest_range hd
    have hpos : (0 : ℚ) < m * (10 : ℚ) ^ (e - 8) := mul_pos (Nat.cast_pos.2 (by omega)) (ten_pos _)
    simp only [Bool.false_eq_true, if_false, one_mul] at h2
    rw [abs_of_pos hpos] at h2
    have hy : 0 < y := by
      have := (abs_le.1 h2).1
      have h5 : (m : ℚ) * 10 ^ (e - 8) / 2 ^ 53 < m * 10 ^ (e - 8) := div_lt_self hpos (by norm_num)
      linarith
    rcases h3 with ⟨h, _⟩ | ⟨_, hn', h⟩ | ⟨h, _⟩
    · rw [h] at hy; exact absurd hy (lt_irrefl _)
    · simp only at hn' h
      subst hn'
      obtain ⟨rfl, rfl⟩ := nearest_stable r1 r2 h2 h
      rfl
    · exact absurd (lt_trans hy h) (lt_irrefl _)
  · simp only at hn hd
    subst hn
    obtain ⟨r1, r2⟩ := nearest_range hd
    have hpos : (0 : ℚ) < m * (10 : ℚ) ^ (e - 8) := mul_pos (Nat.cast_pos.2 (by omega)) (ten_pos _)
    simp only [if_true, neg_mul, one_mul, abs_neg] at h2
    rw [abs_of_pos hpos] at h2
    have h2' : |(-y) - m * (10 : ℚ) ^ (e - 8)| ≤ m * (10 : ℚ) ^ (e - 8) / 2 ^ 53 := by
      rw [← abs_neg]
      have : -(-y - m * (10 : ℚ) ^ (e - 8)) = y - -(m * (10 : ℚ) ^ (e - 8)) := by ring
      rw [this]; exact h2
    have hy : 0 < -y := by
      have := (abs_le.1 h2').1
      have h5 : (m : ℚ) * 10 ^ (e - 8) / 2 ^ 53 < m * 10 ^ (e - 8) := div_lt_self hpos (by norm_num)
      linarith
    rcases h3 with ⟨h, _⟩ | ⟨h, _⟩ | ⟨_, hn', h⟩
    · rw [h] at hy; simp at hy
    · exact absurd (by linarith : (0 : ℚ) < 0) (lt_irrefl _)
    · simp only at hn' h
      subst hn'
      obtain ⟨rfl, rfl⟩ := nearest_stable r1 r2 h2' h
      rfl

/-- A chain of writes and reads. -/
inductive Chain : ℚ → List Dec → Prop
  | nil (x : ℚ) : Chain x []
  | cons {x y : ℚ} {d : Dec} {ds : List Dec} : Prints x d → Reads d y → Chain y ds → Chain x (d :: ds)

/-- Any number of restarts: all texts equal the first one. -/
theorem all_writes_same {x : ℚ} {d : Dec} {ds : List Dec} (h : Chain x (d :: ds)) : ∀ d' ∈ ds, d' = d := by
  induction ds generalizing x d with
  | nil => intro d' h; cases h
  | cons d1 ds ih =>
    cases h with
    | cons h1 h2 h3 =>
      have h3' := h3
      cases h3 with
      | cons h4 h5 h6 =>
        have e := second_write_same h1 h2 h4
        intro d' hd
        rcases List.mem_cons.1 hd with rfl | hd
        · exact e
        · rw [ih h3' d' hd, e]

/-- The first write is within half a unit of the ninth digit (positive numbers). -/
theorem first_write_error {x : ℚ} {m : Nat} {e : Int} (h : Nearest x m e) : |x - m * (10 : ℚ) ^ (e - 8)| ≤ x / (2 * 10 ^ 8) := by
  obtain ⟨m0, e0, h1, h2, h3, h4⟩ := h
  have hp := ten_pos (e0 - 8)
  have hv : (m : ℚ) * 10 ^ (e - 8) = m0 * 10 ^ (e0 - 8) := by
    split at h4
    · rename_i hm
      rw [h4.1, h4.2, hm]
      have : (10 : ℚ) ^ (e0 + 1 - 8) = 10 * 10 ^ (e0 - 8) := by
        rw [← zpow_one_add₀ (by norm_num)]; congr 1; ring
      rw [this]; push_cast; ring
    · rw [h4.1, h4.2]
  have h5 : |x - m0 * 10 ^ (e0 - 8)| ≤ 1 / 2 * 10 ^ (e0 - 8) := by
    have : x - m0 * 10 ^ (e0 - 8) = (x / 10 ^ (e0 - 8) - m0) * 10 ^ (e0 - 8) := by field_simp
    rw [this, abs_mul, abs_of_pos hp]
    exact mul_le_mul_of_nonneg_right h3 hp.le
  rw [hv]
  refine le_trans h5 ?_
  have : (10 : ℚ) ^ e0 = 10 ^ 8 * 10 ^ (e0 - 8) := by
    rw [← zpow_natCast, ← zpow_add₀ (by norm_num)]; congr 1; push_cast; ring
  rw [le_div_iff₀ (by norm_num)]
  calc 1 / 2 * (10 : ℚ) ^ (e0 - 8) * (2 * 10 ^ 8) = 10 ^ 8 * 10 ^ (e0 - 8) := by ring
    _ ≤ x := by rw [← this]; exact h1

/-- The first write does change numbers: two different numbers are printed the same. -/
theorem restart_not_exact : Prints (1 + 1 / 10 ^ 10) ⟨false, 10 ^ 8, 0⟩ ∧ Prints 1 ⟨false, 10 ^ 8, 0⟩ := by
  constructor
  · refine .inr (.inl ⟨by norm_num, rfl, 10 ^ 8, 0, by norm_num, by norm_num, ?_, by norm_num⟩)
    rw [abs_le]; constructor <;> norm_num
  · refine .inr (.inl ⟨by norm_num, rfl, 10 ^ 8, 0, by norm_num, by norm_num, ?_, by norm_num⟩)
    rw [abs_le]; constructor <;> norm_num

/-- The carry case is met: `0.99999999999` prints as `1.00000000e+00`. -/
example : Prints (1 - 1 / 10 ^ 11) ⟨false, 10 ^ 8, 0⟩ := by
  refine .inr (.inl ⟨by norm_num, rfl, 10 ^ 9, -1, by norm_num, by norm_num, ?_, by norm_num⟩)
  rw [abs_le]; constructor <;> norm_num

example : Chain (1 + 1 / 10 ^ 10) [⟨false, 10 ^ 8, 0⟩, ⟨false, 10 ^ 8, 0⟩] :=
  .cons restart_not_exact.1 (y := 1) (by unfold Reads Dec.val; norm_num) (.cons restart_not_exact.2 (y := 1) (by unfold Reads Dec.val; norm_num) (.nil _))

end Verif.Values
