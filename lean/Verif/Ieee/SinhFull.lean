import Verif.Ieee.Cosh

/-! `sinh` up to the argument where its value overflows, and beyond. -/
namespace Cest.Ieee
open Cest.Cmath (FM IsDouble RoundsToNearest)
open D Classical
open Cest.Fp (u u_pos u_lt)

variable {ρ : ℝ → ℝ}

/-- A positive number times a positive number: the product is rounded, or overflows. -/
theorem mul_pos_cases {a b : D} {x y : ℝ} (ha : Is a x) (hb : Is b y) (hx : 0 < x) (hy : 0 < y) :
    (x * y < lim ∧ Is (mul ρ a b) (ρ (x * y))) ∨ (lim ≤ x * y ∧ mul ρ a b = inf false) := by
  have p := mul_pos hx hy
  rcases lt_or_ge (x * y) lim with h | h
  · exact Or.inl ⟨h, ha.mul hb (by rwa [abs_of_pos p])⟩
  · refine Or.inr ⟨h, ?_⟩
    rw [mul_fin ha.1 hb.1, ha.2, hb.2, sign_pos ha hx, sign_pos hb hy]
    exact pack_over (by rwa [abs_of_pos p])

theorem add_pos_cases (hr : RoundsToNearest ρ) {a b : D} {x y : ℝ} (ha : Is a x) (hb : Is b y) (hx : 0 < x) (hy : 0 < y) :
    (x + y < lim ∧ Is (add ρ a b) (ρ (x + y))) ∨ (lim ≤ x + y ∧ add ρ a b = inf false) := by
  have p := add_pos hx hy
  rcases lt_or_ge (x + y) lim with h | h
  · exact Or.inl ⟨h, ha.add hr hb (by rwa [abs_of_pos p])⟩
  · refine Or.inr ⟨h, ?_⟩
    have e : decide (x + y < 0) = false := by simp; linarith
    rw [add_fin ha.1 hb.1, addF, ha.2, hb.2, if_neg p.ne', e]
    exact pack_over (by rwa [abs_of_pos p])

theorem four_inf : mul ρ (fin 4) (inf false) = inf false := by
  rw [mul_inf (is_fin 4) (by norm_num), sign_pos (is_fin 4) (by norm_num)]; rfl

/-- Widening a relative bound by one more rounding. -/
theorem rel_step {y z S a b : ℝ} (hS : 0 ≤ S) (h1 : S * (1 - a) ≤ y) (h2 : y ≤ S * (1 + a))
    (h3 : y * (1 - u) ≤ z) (h4 : z ≤ y * (1 + u)) (hb : a + u + a * u ≤ b) (ha : 0 ≤ a) :
    S * (1 - b) ≤ z ∧ z ≤ S * (1 + b) := by
  have hu := u_pos
  have hu1 := u_lt
  norm_num at hu1
  have au : 0 ≤ a * u := by positivity
  constructor
  · refine le_trans ?_ h3
    refine le_trans ?_ (mul_le_mul_of_nonneg_right h1 (by linarith))
    rw [mul_assoc]
    refine mul_le_mul_of_nonneg_left ?_ hS
    nlinarith
  · refine h4.trans ?_
    refine (mul_le_mul_of_nonneg_right h2 (by linarith)).trans ?_
    rw [mul_assoc]
    refine mul_le_mul_of_nonneg_left ?_ hS
    nlinarith

/-- One level of the recursion: the exact value within a few roundings, or an overflow. -/
theorem triple_cases (hr : RoundsToNearest ρ) {w : D} {v : ℝ} (hw : Is w v) (v1 : 1 ≤ v) (v2 : v * v ≤ 2 ^ 1000) :
    (∃ r, Is (add ρ (mul ρ (fin 3) w) (mul ρ (fin 4) (cube ρ w))) r ∧
      (3 * v + 4 * v ^ 3) * (1 - 1 / 10 ^ 12) ≤ r ∧ r ≤ (3 * v + 4 * v ^ 3) * (1 + 1 / 10 ^ 12)) ∨
    (add ρ (mul ρ (fin 3) w) (mul ρ (fin 4) (cube ρ w)) = inf false ∧ (1 - 1 / 10 ^ 12) * lim ≤ 3 * v + 4 * v ^ 3) := by
  have hu := u_pos
  have hu1 := u_lt
  norm_num at hu1
  have v0 : 0 < v := by linarith
  have hl := lim_big
  norm_num at hl
  have big : (3 : ℝ) * 2 ^ 1000 < lim := lt_lim (by
    rw [show (1023 : ℕ) = 1000 + 23 by norm_num, pow_add, mul_comm]
    exact mul_le_mul_of_nonneg_left (by norm_num) (by positivity))
  generalize (2 : ℝ) ^ 1000 = W at *
  have vv : v ≤ v * v := le_mul_of_one_le_left v0.le v1
  have cu : 1 ≤ v ^ 3 := one_le_pow₀ v1
  have over : ∀ y : ℝ, lim ≤ y → y ≤ (3 * v + 4 * v ^ 3) * (1 + 5 / 10 ^ 14) →
      (1 - 1 / 10 ^ 12) * lim ≤ 3 * v + 4 * v ^ 3 := by
    intro y y1 y2
    have s0 : 0 < 3 * v + 4 * v ^ 3 := by positivity
    norm_num at y2 ⊢
    linarith only [y1, y2, s0]
  -- 3 v
  have a1 : Is (mul ρ (fin 3) w) (ρ (3 * v)) := (is_fin 3).mul hw (by rw [abs_of_pos (by positivity)]; linarith)
  obtain ⟨a2, a3⟩ := rb_lim hr (y := 3 * v) (by linarith) (by linarith)
  have a0 : 0 < ρ (3 * v) := lt_of_lt_of_le (mul_pos (by linarith) (by linarith)) a2
  -- the square
  have b1 : Is (mul ρ w w) (ρ (v * v)) := hw.mul hw (by rw [abs_of_pos (by positivity)]; linarith)
  obtain ⟨b2, b3⟩ := rb_lim hr (y := v * v) (by linarith) (by linarith)
  have ecu : v * v * v = v ^ 3 := by ring
  have b0 : 0 < ρ (v * v) := lt_of_lt_of_le (mul_pos (by positivity) (by linarith)) b2
  generalize ρ (v * v) = p at *
  have pv1 : v ^ 3 * (1 - u) ≤ p * v := by
    have := mul_le_mul_of_nonneg_right b2 v0.le
    linarith only [this, ecu, show v * v * (1 - u) * v = v ^ 3 * (1 - u) by ring]
  have pv2 : p * v ≤ v ^ 3 * (1 + u) := by
    have := mul_le_mul_of_nonneg_right b3 v0.le
    linarith only [this, ecu, show v * v * (1 + u) * v = v ^ 3 * (1 + u) by ring]
  have c3 : v ^ 3 * u ≤ v ^ 3 * (1 / 10 ^ 15) := mul_le_mul_of_nonneg_left (by norm_num; linarith) (by positivity)
  norm_num at c3
  have sq : u * u ≤ u * (1 / 100) := mul_le_mul_of_nonneg_left (by linarith) hu.le
  -- the cube
  rcases mul_pos_cases (ρ := ρ) b1 hw b0 v0 with ⟨k, d1⟩ | ⟨k, d1⟩
  rotate_left
  · right
    have e : cube ρ w = inf false := d1
    rw [e, four_inf, add_inf a1]
    refine ⟨rfl, over _ k ?_⟩
    norm_num
    linarith only [pv2, c3, cu, v0]
  obtain ⟨d2, d3⟩ := rb_lim hr (y := p * v) (by linarith only [pv1, c3, cu]) k
  have d1' : Is (cube ρ w) (ρ (p * v)) := d1
  obtain ⟨c1, c2⟩ := rel_step (b := 3 * u) (by positivity) pv1 pv2 d2 d3 (by linarith) hu.le
  generalize ρ (p * v) = c at *
  have cp : 1 / 2 ≤ c := by linarith only [c1, c3, cu]
  -- four times the cube
  rcases mul_pos_cases (ρ := ρ) (is_fin 4) d1' (by norm_num) (by linarith) with ⟨k', e1⟩ | ⟨k', e1⟩
  rotate_left
  · right
    rw [e1, add_inf a1]
    refine ⟨rfl, over _ k' ?_⟩
    norm_num
    linarith only [c2, c3, cu, v0]
  obtain ⟨e2, e3⟩ := rb_lim hr (y := 4 * c) (by linarith) k'
  obtain ⟨f1, f2⟩ := rel_step (S := 4 * v ^ 3) (a := 3 * u) (b := 5 * u) (by positivity) (by linarith only [c1])
    (by linarith only [c2]) e2 e3 (by linarith) (by linarith)
  generalize ρ (4 * c) = f at *
  have fp : 1 / 2 ≤ f := by linarith only [f1, c3, cu]
  have vu : 0 < v * u := by positivity
  have s1 : (3 * v + 4 * v ^ 3) * (1 - 5 * u) ≤ ρ (3 * v) + f := by linarith only [a2, f1, vu]
  have s2 : ρ (3 * v) + f ≤ (3 * v + 4 * v ^ 3) * (1 + 5 * u) := by linarith only [a3, f2, vu]
  rcases add_pos_cases hr a1 e1 a0 (by linarith) with ⟨k'', g1⟩ | ⟨k'', g1⟩
  rotate_left
  · right
    refine ⟨g1, over _ k'' (s2.trans (mul_le_mul_of_nonneg_left ?_ (by positivity)))⟩
    norm_num
    linarith only [hu1]
  left
  obtain ⟨g2, g3⟩ := rb_lim hr (y := ρ (3 * v) + f) (by linarith) k''
  obtain ⟨q1, q2⟩ := rel_step (b := 1 / 10 ^ 12) (by positivity) s1 s2 g2 g3 (by norm_num; linarith) (by linarith)
  exact ⟨_, g1, q1, q2⟩

theorem sinh_ge_342 {t : ℝ} (h : 238 ≤ t) : 2 ^ 342 ≤ Real.sinh t := by
  have h2 : (2 : ℝ) ^ 343 * (101 / 100) ≤ Real.exp t := by
    rw [← Real.log_le_iff_le_exp (by positivity), Real.log_mul (by positivity) (by norm_num), Real.log_pow]
    have h3 := Real.log_two_lt_d9
    have h4 : Real.log (101 / 100) ≤ 101 / 100 - 1 := Real.log_le_sub_one_of_pos (by norm_num)
    push_cast; norm_num at h3 h4 ⊢; linarith
  have h3 : Real.exp (-t) ≤ 1 := by rw [Real.exp_le_one_iff]; linarith
  have e : (2 : ℝ) ^ 343 = 2 * 2 ^ 342 := by rw [← pow_succ']
  have e' : (2 : ℝ) ^ 10 ≤ 2 ^ 342 := pow_le_pow_right₀ (by norm_num) (by norm_num)
  rw [Real.sinh_eq]
  rw [e] at h2
  generalize (2 : ℝ) ^ 342 = W at *
  norm_num at e'
  linarith only [e', h2, h3]

theorem triple_over (hr : RoundsToNearest ρ) {w : D} (h : Ge w (2 ^ 342)) :
    add ρ (mul ρ (fin 3) w) (mul ρ (fin 4) (cube ρ w)) = inf false := by
  have p : (0 : ℝ) < 2 ^ 342 := by positivity
  have c1 : Ge (mul ρ w w) (2 ^ 684) := h.mul hr h p p (isDouble_two_pow (by norm_num)) (by rw [← pow_add])
  have c2 : cube ρ w = inf false := by
    show mul ρ (mul ρ w w) w = _
    rcases h with rfl | ⟨y, hy, y1⟩
    · rfl
    have y0 : 0 < y := lt_of_lt_of_le p y1
    rcases c1 with e | ⟨x, hx, x1⟩
    · rw [e, inf_mul hy y0.ne', sign_pos hy y0]; rfl
    · rcases mul_pos_cases (ρ := ρ) hx hy (lt_of_lt_of_le (by positivity) x1) y0 with ⟨k, -⟩ | ⟨-, k⟩
      · exfalso
        have : (2 : ℝ) ^ 684 * 2 ^ 342 ≤ x * y := mul_le_mul x1 y1 p.le ((by positivity : (0 : ℝ) ≤ 2 ^ 684).trans x1)
        rw [← pow_add, show 684 + 342 = 1026 by norm_num] at this
        have h2 : lim ≤ (2 : ℝ) ^ 1026 := by
          unfold lim
          exact (sub_le_self _ (by positivity)).trans (pow_le_pow_right₀ (by norm_num) (by norm_num))
        exact absurd (h2.trans this) (not_le.mpr k)
      · exact k
  have c4 : Ge (mul ρ (fin 3) w) (2 ^ 342) :=
    ge_three.mul hr h (by norm_num) p (isDouble_two_pow (by norm_num)) (le_mul_of_one_le_left p.le (by norm_num))
  rw [c2, four_inf]
  rcases c4 with e | ⟨x, hx, -⟩
  · rw [e]; rfl
  · exact add_inf hx _

/-- From 720 on the exact value is beyond the largest double. -/
theorem sinh_ge_lim {y : ℝ} (hy : 720 ≤ y) : lim ≤ Real.sinh y := by
  have h2 : (2 : ℝ) ^ 1025 * (101 / 100) ≤ Real.exp y := by
    rw [← Real.log_le_iff_le_exp (mul_pos (pow_pos two_pos _) (by norm_num)),
      Real.log_mul (pow_pos two_pos _).ne' (by norm_num), Real.log_pow]
    have h3 := Real.log_two_lt_d9
    have h4 : Real.log (101 / 100) ≤ 101 / 100 - 1 := Real.log_le_sub_one_of_pos (by norm_num)
    push_cast; norm_num at h3 h4 ⊢; linarith
  have h3 : Real.exp (-y) ≤ 1 := by rw [Real.exp_le_one_iff]; linarith
  have e : (2 : ℝ) ^ 1025 = 2 * 2 ^ 1024 := by rw [← pow_succ']
  have e1 : lim ≤ (2 : ℝ) ^ 1024 := by
    unfold lim
    exact sub_le_self _ (by positivity)
  have hl := lim_big
  norm_num at hl
  rw [Real.sinh_eq]
  rw [e] at h2
  generalize (2 : ℝ) ^ 1024 = W at *
  linarith only [h2, h3, e1, hl]

theorem sinhHelper_valid (hr : RoundsToNearest ρ) {fuel : ℕ} {A V : D} (hv : Valid A)
    (h : sinhHelper ρ fuel A () = .ok V ()) : Valid V := by
  cases fuel with
  | zero => cases h
  | succ n =>
    by_cases hc : lt A (tol ρ)
    · rw [sinhHelper, if_pos hc] at h
      have e : A = V := by injection h
      rwa [← e]
    · obtain ⟨w, -, rfl⟩ := sinhHelper_inv h hc
      exact valid_add hr

/-- `sinh_helper` of every finite double that is not negative. -/
theorem sinhHelper_full (hr : RoundsToNearest ρ) {A : D} {x : ℝ} (hA : Is A x) (hv : Valid A) (h0 : 0 ≤ x) :
    ∃ V, Valid V ∧ Cmath.Gives (fun fuel => sinhHelper ρ fuel A) V ∧
      ((∃ v, Is V v ∧ |v - Real.sinh x| ≤ 4 / 10 ^ 6 * x * Real.cosh x) ∨
        (V = inf false ∧ (1 - 1 / 250) * lim ≤ Real.sinh x)) := by
  have hu := u_pos
  have hu1 := u_lt
  norm_num at hu1
  obtain ⟨-, V, -, N, hN⟩ := helpers_gives hr hA hv
  refine ⟨V, sinhHelper_valid hr hv (hN N le_rfl), ⟨N, hN⟩, ?_⟩
  have hV : sinhHelper ρ (max N 22) A () = .ok V () := hN _ (le_max_left _ _)
  have hl := lim_big
  norm_num at hl
  rcases le_or_gt x 702 with h1 | h1
  · obtain ⟨θ, t0, t1, hK⟩ := Fp.sinhHelper_near hr h0 h1
    obtain ⟨V', hV', g⟩ := sinh_ref hr _ _ _ _ hA hv h0 h1 (hK (max N 22) (le_trans (by norm_num) (le_max_right N 22)))
    rw [hV] at g
    have e : V = V' := by injection g
    subst e
    refine Or.inl ⟨_, hV', ?_⟩
    have key := (Fp.sinh_cosh_close h0 t0 t1 (by norm_num; linarith)).1
    refine key.trans ?_
    have : 0 ≤ x * Real.cosh x := mul_nonneg h0 (Real.cosh_pos x).le
    norm_num
    linarith
  · have ht := tol_pos hr
    have hc : ¬ lt A (tol ρ) := fun hc => by
      have := (hA.lt (is_fin _)).mp hc
      linarith [ht.2]
    obtain ⟨n, hn⟩ : ∃ n, max N 22 = n + 1 := ⟨max N 22 - 1, by have := le_max_right N 22; omega⟩
    have n21 : 21 ≤ n := by have := le_max_right N 22; omega
    rw [hn] at hV
    obtain ⟨t1, t2, t3⟩ := is_third hr hA hv (by linarith [ht.2])
    obtain ⟨w, h3, rfl⟩ := sinhHelper_inv hV hc
    rcases le_or_gt x 720 with h2 | h2
    · obtain ⟨θ, z0, z1, hK⟩ := Fp.sinhHelper_near hr (x := ρ (x / 3)) (by linarith) (by linarith)
      obtain ⟨W, hW, g⟩ := sinh_ref hr _ _ _ _ t1 (valid_div hr) (by linarith) (by linarith) (hK n n21)
      rw [h3] at g
      have e : w = W := by injection g
      subst e
      obtain ⟨y1, y2⟩ := rb_lim hr (y := x / 3) (by linarith) (by linarith)
      have z1' := abs_le.mp z1
      norm_num at z1'
      have near : |3 * θ - x| ≤ 12 / 10 ^ 7 * x := by
        rw [abs_le]; norm_num
        constructor <;> nlinarith
      have θl : 233 ≤ θ := by linarith
      have θh : θ ≤ 241 := by linarith
      have e3 : 3 * Real.sinh θ + 4 * Real.sinh θ ^ 3 = Real.sinh (3 * θ) := by rw [Real.sinh_three_mul]; ring
      have v1 : 1 ≤ Real.sinh θ := by
        have : θ ≤ Real.sinh θ := Real.self_le_sinh_iff.mpr z0
        linarith
      have v2 : Real.sinh θ * Real.sinh θ ≤ 2 ^ 1000 := by
        have q1 : Real.sinh θ ≤ Real.exp θ := by
          rw [Real.sinh_eq]
          have := Real.exp_pos θ
          have := Real.exp_pos (-θ)
          linarith
        have q2 : Real.exp θ ≤ 2 ^ 500 := by
          rw [← Real.le_log_iff_exp_le (pow_pos two_pos _), Real.log_pow]
          have h3 := Real.log_two_gt_d9
          push_cast; norm_num at h3 ⊢; linarith
        have q3 := q1.trans q2
        have := mul_le_mul q3 q3 (by linarith) (by positivity)
        rwa [← pow_add] at this
      have key := (Fp.sinh_cosh_close h0 (by linarith : 0 ≤ 3 * θ) near (by norm_num; linarith)).1
      have key' := abs_le.mp key
      have cs : Real.cosh x ≤ Real.sinh x + 1 := by
        rw [Real.cosh_eq, Real.sinh_eq]
        have : Real.exp (-x) ≤ 1 := by rw [Real.exp_le_one_iff]; linarith
        linarith
      have cp := Real.cosh_pos x
      have sc := Real.sinh_lt_cosh x
      have s0 : 0 ≤ Real.sinh x := Real.sinh_nonneg_iff.mpr h0
      have xc : x * Real.cosh x ≤ 720 * Real.cosh x := mul_le_mul_of_nonneg_right h2 cp.le
      have xc' : 702 * Real.cosh x ≤ x * Real.cosh x := mul_le_mul_of_nonneg_right h1.le cp.le
      have ec : 3 * (12 / 10 ^ 7 * x) * Real.cosh x = 36 / 10 ^ 7 * (x * Real.cosh x) := by ring
      rw [ec] at key'
      rcases triple_cases hr hW v1 v2 with ⟨r, hr1, r1, r2⟩ | ⟨hi, r1⟩
      · refine Or.inl ⟨r, hr1, ?_⟩
        rw [e3] at r1 r2
        rw [mul_assoc]
        generalize x * Real.cosh x = Q at *
        norm_num at key' r1 r2 ⊢
        rw [abs_le]
        constructor <;> linarith
      · refine Or.inr ⟨hi, ?_⟩
        rw [e3] at r1
        generalize x * Real.cosh x = Q at *
        norm_num at key' r1 ⊢
        linarith
    · refine Or.inr ⟨triple_over hr ?_, ?_⟩
      · rcases le_or_gt (ρ (x / 3)) 702 with h4 | h4
        · obtain ⟨θ, z0, z1, hK⟩ := Fp.sinhHelper_near hr (x := ρ (x / 3)) (by linarith) h4
          obtain ⟨W, hW, g⟩ := sinh_ref hr _ _ _ _ t1 (valid_div hr) (by linarith) h4 (hK n n21)
          rw [h3] at g
          have e : w = W := by injection g
          subst e
          have z1' := abs_le.mp z1
          norm_num at z1'
          exact Or.inr ⟨_, hW, sinh_ge_342 (by linarith)⟩
        · exact (sinhHelper_512 hr t1 (valid_div hr) (by linarith) h3).weaken (pow_le_pow_right₀ (by norm_num) (by norm_num))
      · have := sinh_ge_lim h2.le
        linarith

/-- `sinh` of every finite double: accurate, or an overflow that is not far off. -/
theorem sinh_full (hr : RoundsToNearest ρ) {A : D} {x : ℝ} (hA : Is A x) (hv : Valid A) :
    (∃ V v, Is V v ∧ Valid V ∧ Cmath.Gives (fun fuel => sinh ρ fuel A) V ∧ |v - Real.sinh x| ≤ 4 / 10 ^ 6 * |x| * Real.cosh x) ∨
    (Cmath.Gives (fun fuel => sinh ρ fuel A) (inf (decide (x < 0))) ∧ (1 - 1 / 250) * lim ≤ |Real.sinh x|) := by
  rcases lt_or_ge x 0 with h | h
  · have hlt : lt A (fin 0) := (hA.lt (is_fin 0)).mpr h
    obtain ⟨V, hd, ⟨N, hN⟩, hc⟩ := sinhHelper_full hr hA.neg (valid_neg hv) (by linarith)
    have g : Cmath.Gives (fun fuel => sinh ρ fuel A) (neg V) := ⟨N, fun fuel hf => by
      have e : sinhHelper ρ fuel (neg A) () = .ok V () := hN fuel hf
      simp only [sinh, if_pos hlt]
      exact M.bind_of_ok e⟩
    rw [Real.sinh_neg, Real.cosh_neg] at hc
    rcases hc with ⟨v, hv', hb⟩ | ⟨rfl, hb⟩
    · refine Or.inl ⟨_, -v, hv'.neg, valid_neg hd, g, ?_⟩
      rw [abs_of_neg h, show -v - Real.sinh x = -(v - -Real.sinh x) by ring, abs_neg]
      exact hb
    · refine Or.inr ⟨?_, ?_⟩
      · rw [decide_eq_true h]; exact g
      · exact hb.trans (neg_le_abs _)
  · have hlt : ¬ lt A (fin 0) := fun hc => not_le.mpr ((hA.lt (is_fin 0)).mp hc) h
    obtain ⟨V, hd, ⟨N, hN⟩, hc⟩ := sinhHelper_full hr hA hv h
    have g : Cmath.Gives (fun fuel => sinh ρ fuel A) V := ⟨N, fun fuel hf => by
      simp only [sinh, if_neg hlt]
      exact hN fuel hf⟩
    rcases hc with ⟨v, hv', hb⟩ | ⟨rfl, hb⟩
    · exact Or.inl ⟨_, v, hv', hd, g, by rwa [abs_of_nonneg h]⟩
    · refine Or.inr ⟨?_, hb.trans (le_abs_self _)⟩
      rw [decide_eq_false (not_lt.mpr h)]; exact g

end Cest.Ieee
