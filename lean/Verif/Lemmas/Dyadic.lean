import Verif.Lemmas.Overshoot
import Mathlib.Analysis.Complex.Exponential

/-! # Interval arithmetic for the quadrature with an integer `lam`, 300 panels

Fixed-point (`2^100`) bounds of the trapezium sums of `part_scaling_fn`, computable by the kernel: `up`, `low` bound the sum
for `lam = p` and the left end `l/m`.  Soundness: `quad_le_of_check`, `quad_gt_of_check`. -/

namespace S2wav
namespace Dyadic

/-- the scale of the fixed-point numbers -/
def sc : ℕ := 2 ^ 100

/-- one Horner step of the exponential series, rounded down -/
def stepL (z i t : ℕ) : ℕ := sc + t * z / (sc * i)

/-- one Horner step of the exponential series, rounded up -/
def stepU (z i t : ℕ) : ℕ := sc + t * z / (sc * i) + 1

/-- lower bound of `exp` -/
def hornerL (z : ℕ) : ℕ :=
  stepL z 1 (stepL z 2 (stepL z 3 (stepL z 4 (stepL z 5 (stepL z 6 (stepL z 7 (stepL z 8 (stepL z 9 (stepL z 10
    (stepL z 11 sc))))))))))

/-- upper bound of `exp` on `[0, 1]` -/
def hornerU (z : ℕ) : ℕ :=
  stepU z 1 (stepU z 2 (stepU z 3 (stepU z 4 (stepU z 5 (stepU z 6 (stepU z 7 (stepU z 8 (stepU z 9 (stepU z 10
    (stepU z 11 (stepU z 12 (2 * sc))))))))))))

/-- upper bound of `exp (-p/q)` -/
def expUp (p q : ℕ) : ℕ := 2 ^ 25700 / hornerL (Nat.min (p * sc / (q * 256)) (sc / 4)) ^ 256 + 1

/-- lower bound of `exp (-p/q)` -/
def expLo (p q : ℕ) : ℕ :=
  bif Nat.ble (2 * (p * sc / (q * 256) + 1)) sc then 2 ^ 25700 / hornerU (p * sc / (q * 256) + 1) ^ 256 else 0

/-- numerator of the `i`-th node `(300 l + i (m - l)) / (300 m)` -/
def node (m l i : ℕ) : ℕ := 300 * l + i * (m - l)

/-- numerator of the exponent of the integrand at `X/D` -/
def num (p D : ℕ) : ℕ := D * D * ((p - 1) * (p - 1))

/-- denominator of the exponent of the integrand at `X/D` -/
def den (p D X : ℕ) : ℕ := 2 * p * (D - X) * (p * X - D)

/-- upper bound of the integrand at the `i`-th node -/
def tU (p m l i : ℕ) : ℕ :=
  expUp (num p (300 * m)) (den p (300 * m) (node m l i)) * (300 * m) / node m l i + 1

/-- lower bound of the integrand at the `i`-th node -/
def tL (p m l i : ℕ) : ℕ :=
  expLo (num p (300 * m)) (den p (300 * m) (node m l i)) * (300 * m) / node m l i

/-- sum over the nodes `1, …, n` -/
def sU (p m l : ℕ) : ℕ → ℕ
  | 0 => 0
  | n + 1 => sU p m l n + tU p m l (n + 1)

/-- sum over the nodes `1, …, n` -/
def sL (p m l : ℕ) : ℕ → ℕ
  | 0 => 0
  | n + 1 => sL p m l n + tL p m l (n + 1)

/-- upper bound of the trapezium sum starting at `l/m` -/
def up (p m l : ℕ) : ℕ := tU p m l 0 + 2 * sU p m l 298 + tU p m l 299

/-- lower bound of the trapezium sum starting at `l/m` -/
def low (p m l : ℕ) : ℕ := 2 * sL p m l 298

/-- lower bound of the normalisation -/
def low0 (p : ℕ) : ℕ := 2 * sL p p 1 298 - tL p p 1 1

/-- upper bound of the normalisation -/
def up0 (p : ℕ) : ℕ := 2 * sU p p 1 298 + tU p p 1 299

theorem sc_pos : (0 : ℝ) < (sc : ℝ) := by unfold sc; positivity

theorem stepL_le {z i t : ℕ} {T : ℝ} (hi : 0 < i) (h : (t : ℝ) ≤ sc * T) :
    (stepL z i t : ℝ) ≤ sc * (1 + z / sc / i * T) := by
  have hs := sc_pos
  have hi' : (0 : ℝ) < i := by exact_mod_cast hi
  unfold stepL
  push_cast
  have h1 : ((t * z / (sc * i) : ℕ) : ℝ) ≤ (t * z : ℝ) / (sc * i) := by
    have := @Nat.cast_div_le ℝ _ _ _ (t * z) (sc * i)
    push_cast at this
    exact this
  have h2 : (t * z : ℝ) / (sc * i) ≤ (sc * T) * z / (sc * i) :=
    div_le_div_of_nonneg_right (mul_le_mul_of_nonneg_right h (by positivity)) (by positivity)
  have h3 : (sc : ℝ) * T * z / (sc * i) = sc * (z / sc / i * T) := by field_simp
  rw [mul_add, mul_one]
  linarith

theorem le_stepU {z i t : ℕ} {T : ℝ} (hi : 0 < i) (h : (sc : ℝ) * T ≤ t) :
    (sc : ℝ) * (1 + z / sc / i * T) ≤ (stepU z i t : ℝ) := by
  have hs := sc_pos
  have hs' : 0 < sc := by unfold sc; positivity
  have hi' : (0 : ℝ) < i := by exact_mod_cast hi
  unfold stepU
  push_cast
  have h1 : (t * z : ℝ) / (sc * i) ≤ ((t * z / (sc * i) : ℕ) : ℝ) + 1 := by
    rw [div_le_iff₀ (by positivity)]
    have := (Nat.lt_mul_div_succ (t * z) (Nat.mul_pos hs' hi)).le
    have h' : ((t * z : ℕ) : ℝ) ≤ ((sc * i * (t * z / (sc * i) + 1) : ℕ) : ℝ) := by exact_mod_cast this
    push_cast at h'
    linarith
  have h2 : (sc * T) * z / (sc * i) ≤ (t * z : ℝ) / (sc * i) :=
    div_le_div_of_nonneg_right (mul_le_mul_of_nonneg_right h (by positivity)) (by positivity)
  have h3 : (sc : ℝ) * T * z / (sc * i) = sc * (z / sc / i * T) := by field_simp
  rw [mul_add, mul_one]
  linarith

theorem hornerL_le (z : ℕ) : (hornerL z : ℝ) ≤ sc * Real.exp (z / sc) := by
  have h0 : ((sc : ℕ) : ℝ) ≤ sc * 1 := by rw [mul_one]
  have h := stepL_le (z := z) (i := 1) (by norm_num) <| stepL_le (z := z) (i := 2) (by norm_num) <|
    stepL_le (z := z) (i := 3) (by norm_num) <| stepL_le (z := z) (i := 4) (by norm_num) <|
    stepL_le (z := z) (i := 5) (by norm_num) <| stepL_le (z := z) (i := 6) (by norm_num) <|
    stepL_le (z := z) (i := 7) (by norm_num) <| stepL_le (z := z) (i := 8) (by norm_num) <|
    stepL_le (z := z) (i := 9) (by norm_num) <| stepL_le (z := z) (i := 10) (by norm_num) <|
    stepL_le (z := z) (i := 11) (by norm_num) h0
  refine le_trans h (mul_le_mul_of_nonneg_left ?_ sc_pos.le)
  have hs := Real.sum_le_exp_of_nonneg (x := (z : ℝ) / sc) (by have := sc_pos; positivity) 12
  refine le_trans (le_of_eq ?_) hs
  generalize (z : ℝ) / sc = x
  simp only [Finset.sum_range_succ, Finset.sum_range_zero, Nat.factorial]
  push_cast
  ring

theorem le_hornerU {z : ℕ} (hz : z ≤ sc) : (sc : ℝ) * Real.exp (z / sc) ≤ hornerU z := by
  have h0 : (sc : ℝ) * 2 ≤ ((2 * sc : ℕ) : ℝ) := by push_cast; linarith
  have h := le_stepU (z := z) (i := 1) (by norm_num) <| le_stepU (z := z) (i := 2) (by norm_num) <|
    le_stepU (z := z) (i := 3) (by norm_num) <| le_stepU (z := z) (i := 4) (by norm_num) <|
    le_stepU (z := z) (i := 5) (by norm_num) <| le_stepU (z := z) (i := 6) (by norm_num) <|
    le_stepU (z := z) (i := 7) (by norm_num) <| le_stepU (z := z) (i := 8) (by norm_num) <|
    le_stepU (z := z) (i := 9) (by norm_num) <| le_stepU (z := z) (i := 10) (by norm_num) <|
    le_stepU (z := z) (i := 11) (by norm_num) <| le_stepU (z := z) (i := 12) (by norm_num) h0
  refine le_trans (mul_le_mul_of_nonneg_left ?_ sc_pos.le) h
  have hx0 : (0 : ℝ) ≤ (z : ℝ) / sc := by have := sc_pos; positivity
  have hx1 : (z : ℝ) / sc ≤ 1 := by
    rw [div_le_one sc_pos]; exact_mod_cast hz
  have hs := Real.exp_bound' hx0 hx1 (n := 12) (by norm_num)
  refine le_trans hs ?_
  generalize (z : ℝ) / sc = x at hx0
  have hx12 : 0 ≤ x ^ 12 := by positivity
  simp only [Finset.sum_range_succ, Finset.sum_range_zero, Nat.factorial]
  push_cast
  nlinarith [hx12]

theorem hornerL_ge (z : ℕ) : sc ≤ hornerL z := Nat.le_add_right _ _

theorem hornerU_ge (z : ℕ) : sc ≤ hornerU z := Nat.le_succ_of_le (Nat.le_add_right _ _)

theorem sc_pow : ((2 ^ 25700 : ℕ) : ℝ) = sc * (sc : ℝ) ^ 256 := by
  have : (2 ^ 25700 : ℕ) = sc * sc ^ 256 := by
    unfold sc; rw [← pow_mul, ← pow_add]
  rw [this]; push_cast; rfl

theorem le_expUp {p q : ℕ} (hq : 0 < q) : (sc : ℝ) * Real.exp (-(p / q)) ≤ expUp p q := by
  have hs := sc_pos
  have hq' : (0 : ℝ) < q := by exact_mod_cast hq
  unfold expUp
  set z := Nat.min (p * sc / (q * 256)) (sc / 4) with hz
  have hz1 : (z : ℝ) / sc ≤ p / q / 256 := by
    have h1 : z ≤ p * sc / (q * 256) := Nat.min_le_left _ _
    have h2 : (z : ℝ) ≤ (p * sc : ℝ) / (q * 256) := by
      refine le_trans (Nat.cast_le.2 h1) ?_
      have := @Nat.cast_div_le ℝ _ _ _ (p * sc) (q * 256)
      push_cast at this
      exact this
    rw [div_le_iff₀ hs]
    refine h2.trans (le_of_eq ?_)
    field_simp
  have hH := hornerL_le z
  have hpos : (0 : ℝ) < hornerL z := by
    have : (sc : ℝ) ≤ hornerL z := by exact_mod_cast hornerL_ge z
    linarith
  have hpow : (hornerL z : ℝ) ^ 256 ≤ sc ^ 256 * Real.exp (p / q) := by
    have e : Real.exp (p / q) = Real.exp (p / q / 256) ^ 256 := by
      rw [← Real.exp_nat_mul]; congr 1; push_cast; ring
    rw [e, ← mul_pow]
    refine pow_le_pow_left₀ hpos.le (hH.trans (mul_le_mul_of_nonneg_left (Real.exp_le_exp.2 hz1) hs.le)) _
  have hfl : ((2 ^ 25700 : ℕ) : ℝ) / (hornerL z : ℝ) ^ 256 ≤ ((2 ^ 25700 / hornerL z ^ 256 : ℕ) : ℝ) + 1 := by
    have hp : (0 : ℝ) < (hornerL z : ℝ) ^ 256 := by positivity
    have hp' : 0 < hornerL z ^ 256 := by exact_mod_cast hp
    rw [div_le_iff₀ hp]
    have := (Nat.lt_mul_div_succ (2 ^ 25700) hp').le
    have h' : ((2 ^ 25700 : ℕ) : ℝ) ≤ ((hornerL z ^ 256 * (2 ^ 25700 / hornerL z ^ 256 + 1) : ℕ) : ℝ) := Nat.cast_le.2 this
    rw [Nat.cast_mul, Nat.cast_pow (hornerL z), Nat.cast_add, Nat.cast_one] at h'
    linarith
  rw [Nat.cast_add, Nat.cast_one]
  refine le_trans ?_ hfl
  rw [sc_pow, le_div_iff₀ (by positivity)]
  have hee : Real.exp (-(p / q)) * Real.exp (p / q) = 1 := by rw [← Real.exp_add]; simp
  have he := Real.exp_pos (-((p : ℝ) / q))
  calc (sc : ℝ) * Real.exp (-(p / q)) * (hornerL z : ℝ) ^ 256
      ≤ sc * Real.exp (-(p / q)) * (sc ^ 256 * Real.exp (p / q)) := mul_le_mul_of_nonneg_left hpow (by positivity)
    _ = sc * sc ^ 256 * (Real.exp (-(p / q)) * Real.exp (p / q)) := by ring
    _ = sc * sc ^ 256 := by rw [hee, mul_one]

theorem expLo_le {p q : ℕ} (hq : 0 < q) : (expLo p q : ℝ) ≤ sc * Real.exp (-(p / q)) := by
  have hs := sc_pos
  have hq' : (0 : ℝ) < q := by exact_mod_cast hq
  have he := Real.exp_pos (-((p : ℝ) / q))
  unfold expLo
  set z := p * sc / (q * 256) + 1 with hz
  cases hb : Nat.ble (2 * z) sc with
  | false => rw [cond_false, Nat.cast_zero]; positivity
  | true =>
    rw [cond_true]
    have hzs : z ≤ sc := by have := Nat.le_of_ble_eq_true hb; omega
    have hz1 : (p : ℝ) / q / 256 ≤ z / sc := by
      have := (Nat.lt_mul_div_succ (p * sc) (show 0 < q * 256 by omega)).le
      have h' : ((p * sc : ℕ) : ℝ) ≤ ((q * 256 * z : ℕ) : ℝ) := Nat.cast_le.2 this
      push_cast at h'
      rw [div_div, div_le_div_iff₀ (by positivity) hs]
      linarith
    have hH := le_hornerU hzs
    have hpos : (0 : ℝ) < hornerU z := by
      have : (sc : ℝ) ≤ hornerU z := by exact_mod_cast hornerU_ge z
      linarith
    have hpow : sc ^ 256 * Real.exp (p / q) ≤ (hornerU z : ℝ) ^ 256 := by
      have e : Real.exp (p / q) = Real.exp (p / q / 256) ^ 256 := by
        rw [← Real.exp_nat_mul]; congr 1; push_cast; ring
      rw [e, ← mul_pow]
      exact pow_le_pow_left₀ (mul_nonneg hs.le (Real.exp_pos _).le)
        ((mul_le_mul_of_nonneg_left (Real.exp_le_exp.2 hz1) hs.le).trans hH) _
    have hfl : ((2 ^ 25700 / hornerU z ^ 256 : ℕ) : ℝ) ≤ ((2 ^ 25700 : ℕ) : ℝ) / (hornerU z : ℝ) ^ 256 := by
      have := @Nat.cast_div_le ℝ _ _ _ (2 ^ 25700) (hornerU z ^ 256)
      rw [Nat.cast_pow (hornerU z)] at this
      exact this
    refine hfl.trans ?_
    rw [sc_pow, div_le_iff₀ (by positivity)]
    have hee : Real.exp (-(p / q)) * Real.exp (p / q) = 1 := by rw [← Real.exp_add]; simp
    calc (sc : ℝ) * sc ^ 256 = sc * sc ^ 256 * (Real.exp (-(p / q)) * Real.exp (p / q)) := by rw [hee, mul_one]
      _ = sc * Real.exp (-(p / q)) * (sc ^ 256 * Real.exp (p / q)) := by ring
      _ ≤ _ := mul_le_mul_of_nonneg_left hpow (by positivity)

/-- the integrand for `lam = p` at `X/D` -/
theorem gInt_nat {p D X : ℕ} (hp : 2 ≤ p) (h1 : D < p * X) (h2 : X < D) :
    gInt p ((X : ℝ) / D) = Real.exp (-((num p D : ℝ) / (den p D X : ℝ))) * D / X := by
  have hD : (0 : ℝ) < D := by exact_mod_cast (by omega : 0 < D)
  have hX0 : 0 < X := Nat.pos_of_ne_zero (by rintro rfl; omega)
  have hX : (0 : ℝ) < X := by exact_mod_cast hX0
  have hp' : (2 : ℝ) ≤ p := by exact_mod_cast hp
  have e0 : (num p D : ℝ) = D * D * ((p - 1) * (p - 1)) := by
    unfold num
    rw [Nat.cast_mul, Nat.cast_mul, Nat.cast_mul, Nat.cast_sub (by omega)]; push_cast; ring
  have e1 : (den p D X : ℝ) = 2 * p * ((D : ℝ) - X) * (p * X - D) := by
    unfold den
    rw [Nat.cast_mul, Nat.cast_mul, Nat.cast_sub h2.le, Nat.cast_sub h1.le]; push_cast; ring
  have a1 : (0 : ℝ) < D - X := by have : (X : ℝ) < D := by exact_mod_cast h2
                                  linarith
  have a2 : (0 : ℝ) < p * X - D := by have : (D : ℝ) < p * X := by exact_mod_cast h1
                                      linarith
  have a3 : (0 : ℝ) < (p : ℝ) - 1 := by linarith
  have a4 : (0 : ℝ) < (p : ℝ) := by linarith
  rw [e0, e1]
  unfold gInt sArg
  have e2 : -2 / (1 - (((X : ℝ) / D - 1 / p) * (2 * p / (p - 1)) - 1) ^ 2) =
      -((D : ℝ) * D * ((p - 1) * (p - 1)) / (2 * p * ((D : ℝ) - X) * (p * X - D))) := by
    have e3 : 1 - (((X : ℝ) / D - 1 / p) * (2 * p / (p - 1)) - 1) ^ 2 =
        4 * p * ((D : ℝ) - X) * (p * X - D) / (D * D * ((p - 1) * (p - 1))) := by
      field_simp; ring
    rw [e3, neg_div, div_div_eq_mul_div, neg_inj, div_eq_div_iff (by positivity) (by positivity)]
    ring
  rw [e2, div_div_eq_mul_div]

section
variable {p m l : ℕ}

/-- the real node -/
theorem node_real (hm : 0 < m) (hlm : l < m) (i : ℕ) :
    (l : ℝ) / m + i * ((1 - (l : ℝ) / m) / (300 : ℤ)) = (node m l i : ℝ) / ((300 * m : ℕ) : ℝ) := by
  have hm' : (0 : ℝ) < m := by exact_mod_cast hm
  unfold node
  rw [Nat.cast_add, Nat.cast_mul i, Nat.cast_sub hlm.le]
  push_cast
  field_simp

theorem node_lt (hlm : l < m) {i : ℕ} (hi : i < 300) : node m l i < 300 * m := by
  unfold node
  have h := Nat.mul_lt_mul_of_pos_right hi (show 0 < m - l by omega)
  have h2 : 300 * l + 300 * (m - l) = 300 * m := by rw [← Nat.mul_add]; congr 1; omega
  omega

theorem g_bounds (hp : 2 ≤ p) (hm : 0 < m) (hlm : l < m) {i : ℕ} (hi : i < 300) (h : 300 * m < p * node m l i) :
    (tL p m l i : ℝ) ≤ sc * gInt p ((l : ℝ) / m + i * ((1 - (l : ℝ) / m) / (300 : ℤ))) ∧
    sc * gInt p ((l : ℝ) / m + i * ((1 - (l : ℝ) / m) / (300 : ℤ))) ≤ tU p m l i := by
  rw [node_real hm hlm]
  have hn := node_lt hlm hi
  rw [gInt_nat hp h hn]
  have hX0 : 0 < node m l i := Nat.pos_of_ne_zero (by intro h0; rw [h0] at h; omega)
  have hX : (0 : ℝ) < (node m l i : ℝ) := by exact_mod_cast hX0
  have hq : 0 < den p (300 * m) (node m l i) :=
    Nat.mul_pos (Nat.mul_pos (by omega) (by omega)) (by omega)
  have hU := le_expUp (p := num p (300 * m)) hq
  have hL := expLo_le (p := num p (300 * m)) hq
  unfold tL tU
  generalize Real.exp (-((num p (300 * m) : ℝ) / (den p (300 * m) (node m l i) : ℝ))) = e at hU hL ⊢
  generalize expUp (num p (300 * m)) (den p (300 * m) (node m l i)) = u at hU
  generalize expLo (num p (300 * m)) (den p (300 * m) (node m l i)) = v at hL
  generalize 300 * m = D
  have e' : (sc : ℝ) * (e * D / node m l i) = sc * e * D / node m l i := by ring
  rw [e']
  constructor
  · have := @Nat.cast_div_le ℝ _ _ _ (v * D) (node m l i)
    rw [Nat.cast_mul] at this
    exact this.trans (div_le_div_of_nonneg_right (mul_le_mul_of_nonneg_right hL (Nat.cast_nonneg _)) hX.le)
  · have h1 : (u * D : ℝ) / node m l i ≤ ((u * D / node m l i : ℕ) : ℝ) + 1 := by
      rw [div_le_iff₀ hX]
      have := (Nat.lt_mul_div_succ (u * D) (show 0 < node m l i by exact_mod_cast hX)).le
      have h' : ((u * D : ℕ) : ℝ) ≤ ((node m l i * (u * D / node m l i + 1) : ℕ) : ℝ) := Nat.cast_le.2 this
      push_cast at h'
      linarith
    rw [Nat.cast_add, Nat.cast_one]
    exact (div_le_div_of_nonneg_right (mul_le_mul_of_nonneg_right hU (Nat.cast_nonneg _)) hX.le).trans h1

end

theorem trap_sum (u : ℕ → ℝ) (n : ℕ) :
    ∑ i ∈ Finset.range (n + 1), (u i + u (i + 1)) = u 0 + 2 * ∑ i ∈ Finset.range n, u (i + 1) + u (n + 1) := by
  induction n with
  | zero => simp
  | succ n ih => rw [Finset.sum_range_succ, ih, Finset.sum_range_succ (n := n)]; ring

theorem sU_eq (p m l n : ℕ) : sU p m l n = ∑ i ∈ Finset.range n, tU p m l (i + 1) := by
  induction n with
  | zero => rfl
  | succ n ih => rw [Finset.sum_range_succ, ← ih]; rfl

theorem sL_eq (p m l n : ℕ) : sL p m l n = ∑ i ∈ Finset.range n, tL p m l (i + 1) := by
  induction n with
  | zero => rfl
  | succ n ih => rw [Finset.sum_range_succ, ← ih]; rfl

/-- node `i` of the quadrature starting at `l/m` -/
noncomputable def gN (p m l i : ℕ) : ℝ := gInt p ((l : ℝ) / m + i * ((1 - (l : ℝ) / m) / (300 : ℤ)))

open Classical in
theorem quad_range {p m l : ℕ} (hp : 2 ≤ p) (hm : 0 < m) (hlm : l < m) (h : m ≤ p * l) :
    quad p 300 ((l : ℝ) / m) = ((1 - (l : ℝ) / m) / (300 : ℤ)) / 2 *
      ∑ i ∈ Finset.range 300, if (i = 299 ∨ i = 0 ∧ m = p * l) then 0 else gN p m l i + gN p m l (i + 1) := by
  have hm' : (0 : ℝ) < m := by exact_mod_cast hm
  have hp' : (0 : ℝ) < p := by exact_mod_cast (by omega : 0 < p)
  have h1 : (1 : ℝ) / p ≤ l / m := by
    rw [div_le_div_iff₀ hp' hm']
    have : (m : ℝ) ≤ p * l := by exact_mod_cast h
    linarith
  have h2 : (l : ℝ) / m < 1 := by rw [div_lt_one hm']; exact_mod_cast hlm
  have e := sum_Ico_int (fun i : ℤ => if touches p 300 ((l : ℝ) / m) i then 0 else
    (gInt p ((l : ℝ) / m + i * ((1 - (l : ℝ) / m) / (300 : ℤ))) + gInt p ((l : ℝ) / m + (i + 1) * ((1 - (l : ℝ) / m) / (300 : ℤ)))) *
      ((1 - (l : ℝ) / m) / (300 : ℤ)) / 2) 300
  unfold quad
  refine e.trans ?_
  rw [Finset.mul_sum]
  refine Finset.sum_congr rfl fun i hi => ?_
  rw [Finset.mem_range] at hi
  have ht : touches p 300 ((l : ℝ) / m) (i : ℤ) ↔ (i = 299 ∨ i = 0 ∧ m = p * l) := by
    rw [touches_iff h1 h2 (by norm_num) (by omega) (by omega)]
    have : ((l : ℝ) / m = 1 / p) ↔ m = p * l := by
      rw [div_eq_div_iff hm'.ne' hp'.ne']
      constructor
      · intro h; exact_mod_cast (by linarith : (m : ℝ) = p * l)
      · intro h; have : (m : ℝ) = p * l := by exact_mod_cast h
        linarith
    rw [this]
    omega
  by_cases hc : i = 299 ∨ i = 0 ∧ m = p * l
  · rw [if_pos hc, if_pos (ht.2 hc), mul_zero]
  · rw [if_neg hc, if_neg (fun h => hc (ht.1 h))]
    unfold gN
    push_cast
    ring

theorem quad_inner {p m l : ℕ} (hp : 2 ≤ p) (hm : 0 < m) (hlm : l < m) (h : m < p * l) :
    quad p 300 ((l : ℝ) / m) = ((1 - (l : ℝ) / m) / (300 : ℤ)) / 2 *
      (gN p m l 0 + 2 * ∑ i ∈ Finset.range 298, gN p m l (i + 1) + gN p m l 299) := by
  rw [quad_range hp hm hlm h.le, ← trap_sum (gN p m l) 298, Finset.sum_range_succ (n := 299), if_pos (Or.inl rfl), add_zero]
  congr 1
  refine Finset.sum_congr rfl fun i hi => ?_
  rw [Finset.mem_range] at hi
  rw [if_neg (by omega)]

theorem quad_edge {p : ℕ} (hp : 2 ≤ p) : quad p 300 (1 / p) = ((1 - (1 : ℝ) / p) / (300 : ℤ)) / 2 *
    (gN p p 1 1 + 2 * ∑ i ∈ Finset.range 297, gN p p 1 (i + 2) + gN p p 1 299) := by
  have e := quad_range (p := p) (m := p) (l := 1) hp (by omega) (by omega) (by omega)
  have e2 := trap_sum (fun i => gN p p 1 (i + 1)) 297
  rw [Finset.sum_range_succ (n := 299), if_pos (Or.inl rfl), add_zero, Finset.sum_range_succ' (n := 298),
    if_pos (Or.inr ⟨rfl, (mul_one p).symm⟩), add_zero] at e
  have e3 : ∑ i ∈ Finset.range 298, (if (i + 1 = 299 ∨ i + 1 = 0 ∧ p = p * 1) then (0 : ℝ) else gN p p 1 (i + 1) + gN p p 1 (i + 1 + 1)) =
      ∑ i ∈ Finset.range (297 + 1), (gN p p 1 (i + 1) + gN p p 1 (i + 1 + 1)) := by
    refine Finset.sum_congr rfl fun i hi => ?_
    rw [Finset.mem_range] at hi
    rw [if_neg (by omega)]
  rw [e3, e2, Nat.cast_one] at e
  exact e

section
variable {p m l : ℕ}

theorem gN_bounds (hp : 2 ≤ p) (hm : 0 < m) (hlm : l < m) {i : ℕ} (hi : i < 300) (h : 300 * m < p * node m l i) :
    (tL p m l i : ℝ) ≤ sc * gN p m l i ∧ sc * gN p m l i ≤ tU p m l i := g_bounds hp hm hlm hi h

theorem gN_nonneg (p m l : ℕ) (i : ℕ) (hlm : l < m) (hm : 0 < m) : 0 ≤ gN p m l i := by
  unfold gN gInt
  have hm' : (0 : ℝ) < m := by exact_mod_cast hm
  have h2 : (l : ℝ) / m < 1 := by rw [div_lt_one hm']; exact_mod_cast hlm
  have h0 : (0 : ℝ) ≤ (1 - (l : ℝ) / m) / (300 : ℤ) := div_nonneg (by linarith) (by norm_num)
  exact div_nonneg (Real.exp_pos _).le (by positivity)

theorem node_inner (hm : m < p * l) (i : ℕ) : 300 * m < p * node m l i := by
  unfold node
  have h1 : p * (300 * l) ≤ p * (300 * l + i * (m - l)) := Nat.mul_le_mul_left _ (Nat.le_add_right _ _)
  have h2 : p * (300 * l) = 300 * (p * l) := by ring
  omega

theorem up_ge (hp : 2 ≤ p) (hlm : l < m) (h : m < p * l) :
    sc * (gN p m l 0 + 2 * ∑ i ∈ Finset.range 298, gN p m l (i + 1) + gN p m l 299) ≤ up p m l := by
  have hm : 0 < m := by omega
  have hb : ∀ i, i < 300 → sc * gN p m l i ≤ tU p m l i := fun i hi => (gN_bounds hp hm hlm hi (node_inner h i)).2
  have hs : sc * ∑ i ∈ Finset.range 298, gN p m l (i + 1) ≤ sU p m l 298 := by
    rw [sU_eq, Finset.mul_sum, Nat.cast_sum]
    exact Finset.sum_le_sum fun i hi => hb _ (by rw [Finset.mem_range] at hi; omega)
  have h1 := hb 0 (by norm_num)
  have h2 := hb 299 (by norm_num)
  unfold up
  push_cast
  linarith

theorem low_le (hp : 2 ≤ p) (hlm : l < m) (h : m < p * l) :
    (low p m l : ℝ) ≤ sc * (gN p m l 0 + 2 * ∑ i ∈ Finset.range 298, gN p m l (i + 1) + gN p m l 299) := by
  have hm : 0 < m := by omega
  have hb : ∀ i, i < 300 → (tL p m l i : ℝ) ≤ sc * gN p m l i := fun i hi => (gN_bounds hp hm hlm hi (node_inner h i)).1
  have hs : (sL p m l 298 : ℝ) ≤ sc * ∑ i ∈ Finset.range 298, gN p m l (i + 1) := by
    rw [sL_eq, Finset.mul_sum, Nat.cast_sum]
    exact Finset.sum_le_sum fun i hi => hb _ (by rw [Finset.mem_range] at hi; omega)
  have h1 := mul_nonneg sc_pos.le (gN_nonneg p m l 0 hlm hm)
  have h2 := mul_nonneg sc_pos.le (gN_nonneg p m l 299 hlm hm)
  unfold low
  push_cast
  linarith

theorem node_edge (hp : 2 ≤ p) {i : ℕ} (hi : 1 ≤ i) : 300 * p < p * node p 1 i := by
  unfold node
  have h1 : p * 300 < p * (300 * 1 + i * (p - 1)) :=
    Nat.mul_lt_mul_of_pos_left (by have := Nat.mul_pos hi (show 0 < p - 1 by omega); omega) (by omega)
  omega

theorem low0_le (hp : 2 ≤ p) :
    (low0 p : ℝ) ≤ sc * (gN p p 1 1 + 2 * ∑ i ∈ Finset.range 297, gN p p 1 (i + 2) + gN p p 1 299) := by
  have hb : ∀ i, 1 ≤ i → i < 300 → (tL p p 1 i : ℝ) ≤ sc * gN p p 1 i :=
    fun i h1 hi => (gN_bounds hp (by omega) (by omega) hi (node_edge hp h1)).1
  have hs : sL p p 1 298 = (∑ i ∈ Finset.range 297, tL p p 1 (i + 2)) + tL p p 1 1 := by
    rw [sL_eq, Finset.sum_range_succ']
  have hl : low0 p = 2 * (∑ i ∈ Finset.range 297, tL p p 1 (i + 2)) + tL p p 1 1 := by
    unfold low0; rw [hs]; omega
  have h2 : ((∑ i ∈ Finset.range 297, tL p p 1 (i + 2) : ℕ) : ℝ) ≤ sc * ∑ i ∈ Finset.range 297, gN p p 1 (i + 2) := by
    rw [Finset.mul_sum, Nat.cast_sum]
    exact Finset.sum_le_sum fun i hi => hb _ (by omega) (by rw [Finset.mem_range] at hi; omega)
  have h1 := hb 1 le_rfl (by norm_num)
  have h3 := mul_nonneg sc_pos.le (gN_nonneg p p 1 299 (by omega) (by omega))
  rw [hl, Nat.cast_add, Nat.cast_mul]
  push_cast at h2 ⊢
  linarith

theorem up0_ge (hp : 2 ≤ p) :
    sc * (gN p p 1 1 + 2 * ∑ i ∈ Finset.range 297, gN p p 1 (i + 2) + gN p p 1 299) ≤ up0 p := by
  have hb : ∀ i, 1 ≤ i → i < 300 → sc * gN p p 1 i ≤ tU p p 1 i :=
    fun i h1 hi => (gN_bounds hp (by omega) (by omega) hi (node_edge hp h1)).2
  have hs : sU p p 1 298 = (∑ i ∈ Finset.range 297, tU p p 1 (i + 2)) + tU p p 1 1 := by
    rw [sU_eq, Finset.sum_range_succ']
  have h2 : sc * ∑ i ∈ Finset.range 297, gN p p 1 (i + 2) ≤ ((∑ i ∈ Finset.range 297, tU p p 1 (i + 2) : ℕ) : ℝ) := by
    rw [Finset.mul_sum, Nat.cast_sum]
    exact Finset.sum_le_sum fun i hi => hb _ (by omega) (by rw [Finset.mem_range] at hi; omega)
  have h1 := hb 1 le_rfl (by norm_num)
  have h1' := mul_nonneg sc_pos.le (gN_nonneg p p 1 1 (by omega) (by omega))
  have h3 := hb 299 (by norm_num) (by norm_num)
  unfold up0
  rw [hs]
  push_cast at h2 ⊢
  linarith

end

theorem step_eq {m l : ℕ} (hm : 0 < m) : (1 - (l : ℝ) / m) / (300 : ℤ) / 2 = (m - l) / (600 * m) := by
  have hm' : (0 : ℝ) < m := by exact_mod_cast hm
  push_cast; field_simp; ring

theorem step_eq_one {m : ℕ} (hm : 0 < m) : (1 - (1 : ℝ) / m) / (300 : ℤ) / 2 = (m - 1) / (600 * m) := by
  have := step_eq (l := 1) hm
  rwa [Nat.cast_one] at this

theorem quad_le_of_check {p m l : ℕ} (hp : 2 ≤ p) (hlm : l < m) (h : m < p * l)
    (hc : p * (m - l) * up p m l ≤ m * (p - 1) * low0 p) :
    quad p 300 ((l : ℝ) / m) ≤ quad p 300 (1 / p) := by
  have hm : 0 < m := by omega
  have hm' : (0 : ℝ) < m := by exact_mod_cast hm
  have hp' : (0 : ℝ) < p := by exact_mod_cast (by omega : 0 < p)
  have hp1 : (0 : ℝ) < (p : ℝ) - 1 := by have : (2 : ℝ) ≤ p := by exact_mod_cast hp
                                         linarith
  have hs := sc_pos
  have hlm' : (0 : ℝ) < m - l := by have : (l : ℝ) < m := by exact_mod_cast hlm
                                    linarith
  rw [quad_inner hp hm hlm h, quad_edge hp, step_eq hm, step_eq_one (by omega)]
  have hu := up_ge hp hlm h
  have hl := low0_le hp
  generalize gN p m l 0 + 2 * ∑ i ∈ Finset.range 298, gN p m l (i + 1) + gN p m l 299 = A at hu ⊢
  generalize gN p p 1 1 + 2 * ∑ i ∈ Finset.range 297, gN p p 1 (i + 2) + gN p p 1 299 = B at hl ⊢
  have hc' : p * ((m : ℝ) - l) * up p m l ≤ m * (p - 1) * low0 p := by
    have : ((p * (m - l) * up p m l : ℕ) : ℝ) ≤ ((m * (p - 1) * low0 p : ℕ) : ℝ) := Nat.cast_le.2 hc
    rw [Nat.cast_mul, Nat.cast_mul, Nat.cast_sub hlm.le, Nat.cast_mul, Nat.cast_mul, Nat.cast_sub (by omega)] at this
    exact_mod_cast this
  have h1 : p * ((m : ℝ) - l) * (sc * A) ≤ m * (p - 1) * (sc * B) :=
    (mul_le_mul_of_nonneg_left hu (by positivity)).trans (hc'.trans (mul_le_mul_of_nonneg_left hl (by positivity)))
  have h2 : p * ((m : ℝ) - l) * A ≤ m * (p - 1) * B := by
    clear hu hl hc' hc
    generalize (sc : ℝ) = S at hs h1
    exact le_of_mul_le_mul_left (by linarith) hs
  clear hu hl hc' hc h1 hs
  rw [div_mul_eq_mul_div, div_mul_eq_mul_div, div_le_div_iff₀ (by positivity) (by positivity)]
  linarith

theorem quad_gt_of_check {p m l : ℕ} (hp : 2 ≤ p) (hlm : l < m) (h : m < p * l)
    (hc : m * (p - 1) * up0 p < p * (m - l) * low p m l) :
    quad p 300 (1 / p) < quad p 300 ((l : ℝ) / m) := by
  have hm : 0 < m := by omega
  have hm' : (0 : ℝ) < m := by exact_mod_cast hm
  have hp' : (0 : ℝ) < p := by exact_mod_cast (by omega : 0 < p)
  have hp1 : (0 : ℝ) < (p : ℝ) - 1 := by have : (2 : ℝ) ≤ p := by exact_mod_cast hp
                                         linarith
  have hs := sc_pos
  have hlm' : (0 : ℝ) < m - l := by have : (l : ℝ) < m := by exact_mod_cast hlm
                                    linarith
  rw [quad_inner hp hm hlm h, quad_edge hp, step_eq hm, step_eq_one (by omega)]
  have hu := low_le hp hlm h
  have hl := up0_ge hp
  generalize gN p m l 0 + 2 * ∑ i ∈ Finset.range 298, gN p m l (i + 1) + gN p m l 299 = A at hu ⊢
  generalize gN p p 1 1 + 2 * ∑ i ∈ Finset.range 297, gN p p 1 (i + 2) + gN p p 1 299 = B at hl ⊢
  have hc' : (m : ℝ) * (p - 1) * up0 p < p * ((m : ℝ) - l) * low p m l := by
    have : ((m * (p - 1) * up0 p : ℕ) : ℝ) < ((p * (m - l) * low p m l : ℕ) : ℝ) := Nat.cast_lt.2 hc
    rw [Nat.cast_mul, Nat.cast_mul, Nat.cast_sub (by omega), Nat.cast_mul, Nat.cast_mul, Nat.cast_sub hlm.le] at this
    exact_mod_cast this
  have h1 : (m : ℝ) * (p - 1) * (sc * B) < p * ((m : ℝ) - l) * (sc * A) :=
    (mul_le_mul_of_nonneg_left hl (by positivity)).trans_lt (hc'.trans_le (mul_le_mul_of_nonneg_left hu (by positivity)))
  have h2 : (m : ℝ) * (p - 1) * B < p * ((m : ℝ) - l) * A := by
    clear hu hl hc' hc
    generalize (sc : ℝ) = S at hs h1
    exact lt_of_mul_lt_mul_left (by linarith) hs.le
  clear hu hl hc' hc h1 hs
  rw [div_mul_eq_mul_div, div_mul_eq_mul_div ((m : ℝ) - l), div_lt_div_iff₀ (by positivity) (by positivity)]
  linarith

end Dyadic
end S2wav
