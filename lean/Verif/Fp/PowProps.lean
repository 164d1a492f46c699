import Verif.Fp.Pow
/-! C152: integer powers in binary64: accuracy, exact cases, and the law of exponents.

C67 has the standard model of floating-point arithmetic, in which no result underflows; here the numbers are those of
binary64, and the powers must stay in the normal range. -/

namespace Cest.Fp.Props
open Cest Cest.Cmath

variable {ρ : ℝ → ℝ}

/-- The full result in factor form. -/
theorem pow_factor (hr : RoundsToNearest ρ) {b : ℝ} {n : ℕ} (h0 : 0 < n) (hn : n ≤ 2 ^ 31)
    (lo : 1 / 2 ^ 1021 ≤ |b| ^ n) (hi : |b| ^ n ≤ 2 ^ 1022) :
    ∃ θ, pow ρ b n () = .ok (b ^ n * θ) () ∧ powNN ρ b n = b ^ n * θ ∧
      1 - (n - 1) * u ≤ θ ∧ θ ≤ 1 + 1001 / 1000 * (n - 1) * u := by
  obtain ⟨k, rfl⟩ : ∃ k, n = k + 1 := ⟨n - 1, by omega⟩
  obtain ⟨θ, e, a1, a2⟩ := powNN_factor hr hn lo hi k (le_refl _)
  refine ⟨θ, ?_, e, ?_, ?_⟩
  · rw [pow, if_neg (by omega)]
    simp only [Int.toNat_natCast, M.pure_apply, e]
  · push_cast; linarith
  · push_cast; linarith

/-- **C152 (accuracy).** A power in the normal range is computed with a relative error of little more than one
rounding for each multiplication. -/
theorem C152_pow (hr : RoundsToNearest ρ) {b : ℝ} {n : ℕ} (h0 : 0 < n) (hn : n ≤ 2 ^ 31)
    (lo : 1 / 2 ^ 1021 ≤ |b| ^ n) (hi : |b| ^ n ≤ 2 ^ 1022) :
    ∃ v, pow ρ b n () = .ok v () ∧ |v - b ^ n| ≤ 1001 / 1000 * (n - 1) * u * |b| ^ n := by
  obtain ⟨θ, e, -, a1, a2⟩ := pow_factor hr h0 hn lo hi
  refine ⟨_, e, ?_⟩
  rw [show b ^ n * θ - b ^ n = (θ - 1) * b ^ n by ring, abs_mul, abs_pow]
  refine mul_le_mul_of_nonneg_right ?_ (by positivity)
  have h1 : (1 : ℝ) ≤ n := by exact_mod_cast h0
  have : 0 ≤ ((n : ℝ) - 1) * u := mul_nonneg (by linarith) u_pos.le
  rw [abs_le]; constructor <;> linarith

/-- **C152 (accuracy, negative exponents).** One rounding more, for the division. -/
theorem C152_pow_neg (hr : RoundsToNearest ρ) {b : ℝ} {n : ℕ} (h0 : 0 < n) (hn : (n : ℤ) ≤ intMax)
    (lo : 1 / 2 ^ 1021 ≤ |b| ^ n) (hi : |b| ^ n ≤ 2 ^ 1021) :
    ∃ v, pow ρ b (-n) () = .ok v () ∧ |v - b ^ (-n : ℤ)| ≤ 1002 / 1000 * n * u * |b ^ (-n : ℤ)| := by
  have hu := u_pos
  have hn' : n ≤ 2 ^ 31 := by simp only [intMax] at hn; omega
  obtain ⟨θ, -, e, a1, a2⟩ := pow_factor hr h0 hn' lo (hi.trans (pow_le_pow_right₀ (by norm_num) (by norm_num)))
  have h1 : (1 : ℝ) ≤ n := by exact_mod_cast h0
  have hs := small_of_le hn'
  norm_num at hs
  have hw : 0 ≤ ((n : ℝ) - 1) * u := mul_nonneg (by linarith) hu.le
  have hθ : 0 < θ := by nlinarith
  have hB : 0 < |b| ^ n := lt_of_lt_of_le (by positivity) lo
  have hb : b ^ n ≠ 0 := by
    intro h
    rw [← abs_pow, h, abs_zero] at hB
    exact lt_irrefl _ hB
  have hne : b ^ n * θ ≠ 0 := mul_ne_zero hb hθ.ne'
  have ea : |1 / (b ^ n * θ)| = (|b| ^ n)⁻¹ * θ⁻¹ := by
    rw [abs_div, abs_one, abs_mul, abs_pow, abs_of_pos hθ, one_div, mul_inv]
  have t1 : (1 : ℝ) / 2 ≤ θ⁻¹ := by
    rw [one_div]; exact inv_anti₀ hθ (by nlinarith)
  have t2 : θ⁻¹ ≤ 2 := by
    rw [inv_le_comm₀ hθ (by norm_num)]; nlinarith
  have r1 : (1 : ℝ) / 2 ^ 1021 ≤ (|b| ^ n)⁻¹ := by rw [one_div]; exact inv_anti₀ hB hi
  have r2 : (|b| ^ n)⁻¹ ≤ 2 ^ 1021 := by
    rw [inv_le_comm₀ hB (by positivity)]; simpa using lo
  obtain ⟨δ, e2, d1, d2⟩ := rel_factor hr (x := 1 / (b ^ n * θ))
    (by
      rw [ea]
      have h1 : (1 : ℝ) / 2 ^ 1022 = 1 / 2 ^ 1021 * (1 / 2) := by rw [pow_succ (2 : ℝ) 1021]; field_simp
      rw [h1]
      exact mul_le_mul r1 t1 (by norm_num) (by positivity))
    (by
      rw [ea]
      refine (mul_le_mul r2 t2 (by positivity) (by positivity)).trans ?_
      rw [← pow_succ]
      exact pow_le_pow_right₀ (by norm_num) (by norm_num))
  have hlt : (-(n : ℤ)) < 0 := by omega
  have hI : intMin ≤ (n : ℤ) ∧ (n : ℤ) ≤ intMax := ⟨by simp only [intMin]; omega, hn⟩
  refine ⟨b ^ (-n : ℤ) * (δ / θ), ?_, ?_⟩
  · rw [pow, if_pos hlt]
    simp only [M.bind_apply, int, neg_neg, hI, and_self, if_true, M.pure_apply, Int.toNat_natCast, e, fdiv_ok hne, e2]
    congr 1
    rw [zpow_neg, zpow_natCast]
    field_simp
  · rw [show b ^ (-n : ℤ) * (δ / θ) - b ^ (-n : ℤ) = (δ / θ - 1) * b ^ (-n : ℤ) by ring, abs_mul]
    refine mul_le_mul_of_nonneg_right ?_ (abs_nonneg _)
    rw [show δ / θ - 1 = (δ - θ) / θ by field_simp, abs_div, abs_of_pos hθ, div_le_iff₀ hθ, abs_le]
    constructor <;> nlinarith

/-- **C152 (exact cases).** If the powers of `b` up to the `n`-th are binary64 numbers, the result is exact. -/
theorem C152_exact (hr : RoundsToNearest ρ) {b : ℝ} {n : ℕ} (h : ∀ k, 1 ≤ k → k ≤ n → IsDouble (b ^ k)) :
    pow ρ b n () = .ok (b ^ n) () := by
  rw [pow, if_neg (by omega)]
  simp only [Int.toNat_natCast, M.pure_apply, powNN_exact hr n h]

/-- **C152 (integers).** Powers of integers below `2^53` are exact. -/
theorem C152_integers (hr : RoundsToNearest ρ) {m : ℤ} {n : ℕ} (h : |m| ^ n < 2 ^ 53) :
    pow ρ (m : ℝ) n () = .ok ((m ^ n : ℤ) : ℝ) () := by
  rw [C152_exact hr]
  · push_cast; rfl
  · intro k h1 h2
    have hk : |m ^ k| < 2 ^ 53 := by
      rw [abs_pow]
      rcases eq_or_ne m 0 with rfl | hm
      · rw [abs_zero, zero_pow (by omega)]; norm_num
      · exact lt_of_le_of_lt (pow_le_pow_right₀ (Int.one_le_abs hm) h2) h
    exact ⟨m ^ k, 0, by push_cast; simp, hk, by norm_num, by norm_num⟩

/-- **C152 (powers of two).** Powers of powers of two are exact down to the smallest subnormal number. -/
theorem C152_two (hr : RoundsToNearest ρ) {j : ℤ} {n : ℕ} (h1 : -1074 ≤ j * n) (h2 : j * n ≤ 1023) :
    pow ρ ((2 : ℝ) ^ j) n () = .ok (2 ^ (j * n)) () := by
  rw [C152_exact hr, zpow_mul, zpow_natCast]
  intro k hk1 hk2
  have hk2' : (k : ℤ) ≤ n := by exact_mod_cast hk2
  have e : ((2 : ℝ) ^ j) ^ k = 2 ^ (j * k) := by rw [zpow_mul, zpow_natCast]
  have l : -1074 ≤ j * (k : ℤ) := by
    rcases le_total 0 j with h | h
    · have : 0 ≤ j * (k : ℤ) := mul_nonneg h (by omega)
      omega
    · have : j * (n : ℤ) ≤ j * k := mul_le_mul_of_nonpos_left hk2' h
      omega
  have r : j * (k : ℤ) ≤ 1023 := by
    rcases le_total 0 j with h | h
    · have : j * (k : ℤ) ≤ j * n := mul_le_mul_of_nonneg_left hk2' h
      omega
    · have : j * (k : ℤ) ≤ 0 := mul_nonpos_of_nonpos_of_nonneg h (by omega)
      omega
  rw [e]
  generalize j * (k : ℤ) = i at l r
  rcases le_total i 971 with h | h
  · exact ⟨1, i, by simp, by norm_num, l, h⟩
  · obtain ⟨d, rfl⟩ : ∃ d : ℕ, i = 971 + d := ⟨(i - 971).toNat, by omega⟩
    refine ⟨2 ^ d, 971, ?_, ?_, by norm_num, by norm_num⟩
    · rw [zpow_add₀ (by norm_num), zpow_natCast]; push_cast; ring
    · rw [abs_of_pos (by positivity)]
      exact pow_lt_pow_right₀ (by norm_num) (by omega)

theorem times_factor {p δ s u : ℝ} (s0 : 0 ≤ s) (u0 : 0 ≤ u) (h : s + 2 * u ≤ 1 / 4194304) (p1 : 1 - s ≤ p)
    (p2 : p ≤ 1 + 1002 / 1000 * s) (d1 : 1 - u ≤ δ) (d2 : δ ≤ 1 + u) :
    1 - s - u ≤ p * δ ∧ p * δ ≤ 1 + 1003 / 1000 * (s + u) := by
  have su : 0 ≤ s * u := mul_nonneg s0 u0
  have su' : s * u ≤ s * (1 / 4194304) := mul_le_mul_of_nonneg_left (by linarith) s0
  have a := mul_le_mul p1 d1 (by linarith) (by linarith)
  have b := mul_le_mul p2 d2 (by linarith) (by linarith)
  constructor
  · refine le_trans ?_ a; linarith
  · refine b.trans ?_; linarith

theorem times_factors {α β x y : ℝ} (x0 : 0 ≤ x) (y0 : 0 ≤ y) (h : x + y ≤ 1 / 4194304) (a1 : 1 - x ≤ α)
    (a2 : α ≤ 1 + 1001 / 1000 * x) (b1 : 1 - y ≤ β) (b2 : β ≤ 1 + 1001 / 1000 * y) :
    1 - (x + y) ≤ α * β ∧ α * β ≤ 1 + 1002 / 1000 * (x + y) := by
  have xy : 0 ≤ x * y := mul_nonneg x0 y0
  have xy' : x * y ≤ x * (1 / 4194304) := mul_le_mul_of_nonneg_left (by linarith) x0
  have a := mul_le_mul a1 b1 (by linarith) (by linarith)
  have b := mul_le_mul a2 b2 (by linarith) (by linarith)
  constructor
  · refine le_trans ?_ a; linarith
  · refine b.trans ?_; linarith

/-- **C152 (law of exponents).** `pow(b, m) * pow(b, n)` and `pow(b, m + n)` differ by little more than two roundings
for each factor. -/
theorem C152_add (hr : RoundsToNearest ρ) {b : ℝ} {m n : ℕ} (hm : 0 < m) (hn : 0 < n) (h : m + n ≤ 2 ^ 31)
    (lo : 1 / 2 ^ 1021 ≤ |b| ^ (m + n)) (hi : |b| ^ (m + n) ≤ 2 ^ 1022) :
    ∃ v w z, pow ρ b m () = .ok v () ∧ pow ρ b n () = .ok w () ∧ pow ρ b (m + n : ℕ) () = .ok z () ∧
      |fmul ρ v w - z| ≤ 201 / 100 * (m + n) * u * |b| ^ (m + n) := by
  have hu := u_pos
  have L : (1 : ℝ) / 2 ^ 1021 ≤ 1 := div_le_one_of_le₀ (one_le_pow₀ (by norm_num)) (by positivity)
  have H : (1 : ℝ) ≤ 2 ^ 1022 := one_le_pow₀ (by norm_num)
  obtain ⟨lm, um⟩ := pow_between (abs_nonneg b) (show m ≤ m + n by omega) L H lo hi
  obtain ⟨ln, un⟩ := pow_between (abs_nonneg b) (show n ≤ m + n by omega) L H lo hi
  obtain ⟨α, eα, -, α1, α2⟩ := pow_factor hr hm (by omega) lm um
  obtain ⟨β, eβ, -, β1, β2⟩ := pow_factor hr hn (by omega) ln un
  obtain ⟨γ, eγ, -, γ1, γ2⟩ := pow_factor hr (show 0 < m + n by omega) h lo hi
  refine ⟨_, _, _, eα, eβ, eγ, ?_⟩
  have m1 : (1 : ℝ) ≤ m := by exact_mod_cast hm
  have n1 : (1 : ℝ) ≤ n := by exact_mod_cast hn
  have hs := small_of_le h
  push_cast at hs γ1 γ2
  norm_num at hs
  set x := ((m : ℝ) - 1) * u with hx
  set y := ((n : ℝ) - 1) * u with hy
  have x0 : 0 ≤ x := mul_nonneg (by linarith) hu.le
  have y0 : 0 ≤ y := mul_nonneg (by linarith) hu.le
  have exy : ((m : ℝ) + n) * u = x + y + 2 * u := by rw [hx, hy]; ring
  have α2' : α ≤ 1 + 1001 / 1000 * x := by rw [hx]; linarith
  have β2' : β ≤ 1 + 1001 / 1000 * y := by rw [hy]; linarith
  have γ1' : 1 - (x + y + u) ≤ γ := by linarith
  have γ2' : γ ≤ 1 + 1001 / 1000 * (x + y + u) := by linarith
  rw [exy] at hs
  obtain ⟨αβ1, αβ2⟩ := times_factors x0 y0 (by linarith) (by rw [hx]; exact α1) α2' (by rw [hy]; exact β1) β2'
  have hp : 0 < α * β := by linarith
  have e2 : |b ^ m * α * (b ^ n * β)| = |b| ^ (m + n) * (α * β) := by
    rw [show b ^ m * α * (b ^ n * β) = b ^ (m + n) * (α * β) by ring, abs_mul, abs_pow, abs_of_pos hp]
  have q0 : 0 ≤ |b| ^ (m + n) := by positivity
  obtain ⟨δ, e', d1, d2⟩ := rel_factor hr (x := b ^ m * α * (b ^ n * β))
    (by
      rw [e2]
      have h1 : (1 : ℝ) / 2 ^ 1022 = 1 / 2 ^ 1021 * (1 / 2) := by rw [pow_succ (2 : ℝ) 1021]; field_simp
      rw [h1]
      exact mul_le_mul lo (by linarith) (by norm_num) q0)
    (by
      rw [e2, pow_succ (2 : ℝ) 1022]
      exact mul_le_mul hi (by linarith) hp.le (by positivity))
  rw [fmul, e', show b ^ m * α * (b ^ n * β) * δ - b ^ (m + n) * γ = (α * β * δ - γ) * b ^ (m + n) by ring, abs_mul,
    abs_pow]
  refine mul_le_mul_of_nonneg_right ?_ q0
  have u1 : u ≤ 1 / 4194304 := by linarith
  obtain ⟨δ1, δ2⟩ := times_factor (add_nonneg x0 y0) hu.le (by linarith) αβ1 αβ2 d1 d2
  rw [show (201 : ℝ) / 100 * (m + n) * u = 201 / 100 * (x + y + 2 * u) by rw [← exy]; ring, abs_le]
  constructor <;> linarith

/-- A base below one and a large exponent. -/
example (hr : RoundsToNearest ρ) : ∃ v, pow ρ (1 / 2) (1000 : ℕ) () = .ok v () ∧
    |v - (1 / 2) ^ 1000| ≤ 1001 / 1000 * ((1000 : ℕ) - 1) * u * |1 / 2| ^ 1000 :=
  C152_pow hr (by norm_num) (by norm_num)
    (by rw [abs_of_pos (by norm_num), div_pow, one_pow]
        exact one_div_le_one_div_of_le (by positivity) (pow_le_pow_right₀ (by norm_num) (by norm_num)))
    (by rw [abs_of_pos (by norm_num)]
        exact (pow_le_one₀ (by norm_num) (by norm_num)).trans (one_le_pow₀ (by norm_num)))

example (hr : RoundsToNearest ρ) : pow ρ ((-7 : ℤ) : ℝ) (18 : ℕ) () = .ok (((-7) ^ 18 : ℤ) : ℝ) () :=
  C152_integers hr (by norm_num)

end Cest.Fp.Props
