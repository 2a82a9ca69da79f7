import Verif.Lemmas.Dyadic
import Verif.Lemmas.Overshoot

/-! # Reduction of "no overshoot" for an integer `lam` to a finite table

Every transition-band abscissa `l / lam^j` with `l ≤ K ≤ m = lam^a` is a fraction `i / m`; `kval_place` excludes all of them beyond
the first eighth of the band. The remaining ones are compared with the normaliser by exact integer arithmetic (`Dyadic.up`,
`Dyadic.low0`), evaluated by the kernel in `Table2` … `Table10`. -/

namespace S2wav
namespace Dyadic

/-- `p (m - i) up p m i ≤ m (p - 1) c` for the `n` numerators `i = l, l + st, …` -/
def allLe (p m c st : ℕ) : ℕ → ℕ → Bool
  | 0, _ => true
  | n + 1, l => Nat.ble (p * (m - l) * up p m l) (m * (p - 1) * c) && allLe p m c st n (l + st)

theorem allLe_get {p m c st n l : ℕ} (h : allLe p m c st n l = true) {k : ℕ} (hk : k < n) :
    p * (m - (l + k * st)) * up p m (l + k * st) ≤ m * (p - 1) * c := by
  induction n generalizing l k with
  | zero => omega
  | succ n ih =>
    rw [allLe, Bool.and_eq_true] at h
    cases k with
    | zero => rw [Nat.zero_mul, Nat.add_zero]; exact Nat.le_of_ble_eq_true h.1
    | succ k =>
      have := ih h.2 (k := k) (by omega)
      have e : l + st + k * st = l + (k + 1) * st := by ring
      rwa [e] at this

theorem allLe_one {p m c n l : ℕ} (h : allLe p m c 1 n l = true) {i : ℕ} (h1 : l ≤ i) (h2 : i < l + n) :
    p * (m - i) * up p m i ≤ m * (p - 1) * c := by
  have := allLe_get h (k := i - l) (by omega)
  rwa [Nat.mul_one, Nat.add_sub_cancel' h1] at this

theorem blt_lt {a b : ℕ} (h : Nat.blt a b = true) : a < b := Nat.le_of_ble_eq_true h

end Dyadic

/-- no entry of degree up to `K` exceeds 1 if the fractions `i / p^a` of the first eighth of the band, with `i ≤ K` or `i` divisible
by `p`, pass the comparison -/
theorem kval_nat_le {p a K : ℕ} (hp : 2 ≤ p) (hK : K ≤ p ^ a)
    (htab : ∀ i, p ^ a < p * i → 8 * (p * i) < (7 + p) * p ^ a → (i ≤ K ∨ p ∣ i) →
      quad p 300 ((i : ℝ) / (p ^ a : ℕ)) ≤ quad p 300 (1 / p)) {j l : ℤ} (hl : l ≤ K) : kval p 300 j l ≤ 1 := by
  have hp2 : (2 : ℝ) ≤ p := by exact_mod_cast hp
  have hp1 : (1 : ℝ) < p := by linarith
  have hp0 : (0 : ℝ) < p := by linarith
  by_contra hc
  push Not at hc
  have hpl := kval_place hp1 (le_refl 300) hc.le
  have h1 : (p : ℝ) ^ (j - 1) < (l : ℝ) := by
    by_contra h
    rw [kval_le_edge hp1 (by norm_num) (not_lt.1 h)] at hc
    exact lt_irrefl _ hc
  have h2 : (l : ℝ) < (p : ℝ) ^ j := by
    by_contra h
    rw [kval_above hp1 (not_lt.1 h)] at hc
    linarith
  have hl0 : 0 < l := by
    have : (0 : ℝ) < l := (zpow_pos hp0 _).trans h1
    exact_mod_cast this
  have hj0 : 0 < j := by
    by_contra hj
    have : (p : ℝ) ^ j ≤ 1 := zpow_le_one_of_nonpos₀ hp1.le (not_lt.1 hj)
    have : (1 : ℝ) ≤ l := by exact_mod_cast hl0
    linarith
  have hj1 : j ≤ a := by
    by_contra hj
    have h3 : (p : ℝ) ^ (a : ℤ) ≤ (p : ℝ) ^ (j - 1) := zpow_le_zpow_right₀ hp1.le (by omega)
    have h4 : (l : ℝ) ≤ (K : ℝ) := by exact_mod_cast hl
    have h5 : (K : ℝ) ≤ (p : ℝ) ^ a := by exact_mod_cast hK
    rw [zpow_natCast] at h3
    linarith
  obtain ⟨d, rfl⟩ : ∃ d : ℕ, j = d := ⟨j.toNat, by omega⟩
  obtain ⟨b, rfl⟩ : ∃ b : ℕ, l = b := ⟨l.toNat, by omega⟩
  obtain ⟨c, hc1⟩ : ∃ c, d + c = a := ⟨a - d, by omega⟩
  have hpow : (p : ℝ) ^ (d : ℤ) * (p : ℝ) ^ c = ((p ^ a : ℕ) : ℝ) := by
    rw [zpow_natCast, ← pow_add, hc1]; push_cast; rfl
  have hpow' : (p : ℝ) * ((p : ℝ) ^ ((d : ℤ) - 1) * (p : ℝ) ^ c) = ((p ^ a : ℕ) : ℝ) := by
    rw [zpow_sub_one₀ hp0.ne', ← hpow]; field_simp
  have hpos : (0 : ℝ) < (p : ℝ) ^ c := by positivity
  have hma : (0 : ℝ) < ((p ^ a : ℕ) : ℝ) := by push_cast; positivity
  have e : ((b : ℤ) : ℝ) / (p : ℝ) ^ (d : ℤ) = ((b * p ^ c : ℕ) : ℝ) / ((p ^ a : ℕ) : ℝ) := by
    rw [div_eq_div_iff (by positivity) hma.ne', ← hpow]
    push_cast
    ring
  have g1 : p ^ a < p * (b * p ^ c) := by
    have : ((p ^ a : ℕ) : ℝ) < ((p * (b * p ^ c) : ℕ) : ℝ) := by
      rw [← hpow']; push_cast
      exact mul_lt_mul_of_pos_left (mul_lt_mul_of_pos_right (by exact_mod_cast h1) hpos) hp0
    exact_mod_cast this
  have g2 : 8 * (p * (b * p ^ c)) < (7 + p) * p ^ a := by
    have : ((8 * (p * (b * p ^ c)) : ℕ) : ℝ) < (((7 + p) * p ^ a : ℕ) : ℝ) := by
      have h3 : (b : ℝ) * (p : ℝ) ^ c < ((p : ℝ) ^ ((d : ℤ) - 1) + ((p : ℝ) ^ (d : ℤ) - (p : ℝ) ^ ((d : ℤ) - 1)) / 8) * (p : ℝ) ^ c :=
        mul_lt_mul_of_pos_right (by exact_mod_cast hpl) hpos
      have h4 : (p : ℝ) * ((b : ℝ) * (p : ℝ) ^ c) < p * (((p : ℝ) ^ ((d : ℤ) - 1) +
          ((p : ℝ) ^ (d : ℤ) - (p : ℝ) ^ ((d : ℤ) - 1)) / 8) * (p : ℝ) ^ c) := mul_lt_mul_of_pos_left h3 hp0
      have h5 : (p : ℝ) * (((p : ℝ) ^ ((d : ℤ) - 1) + ((p : ℝ) ^ (d : ℤ) - (p : ℝ) ^ ((d : ℤ) - 1)) / 8) * (p : ℝ) ^ c) =
          7 / 8 * (p * ((p : ℝ) ^ ((d : ℤ) - 1) * (p : ℝ) ^ c)) + p / 8 * ((p : ℝ) ^ (d : ℤ) * (p : ℝ) ^ c) := by ring
      rw [h5, hpow, hpow'] at h4
      generalize hM : ((p ^ a : ℕ) : ℝ) = M at h4
      have e1 : (((7 + p) * p ^ a : ℕ) : ℝ) = (7 + p) * M := by rw [Nat.cast_mul, hM]; push_cast; ring
      rw [e1]
      push_cast
      linarith
    exact_mod_cast this
  have g3 : b * p ^ c ≤ K ∨ p ∣ b * p ^ c := by
    cases c with
    | zero => left; simpa using (by exact_mod_cast hl : b ≤ K)
    | succ c => right; exact ⟨b * p ^ c, by ring⟩
  have key := htab _ g1 g2 g3
  rw [kval_band h1 h2, e] at hc
  have hq : 0 < quad p 300 (1 / p) :=
    quad_pos hp1 le_rfl ((div_lt_one hp0).2 hp1) (by norm_num)
  rw [lt_div_iff₀ hq] at hc
  linarith

/-- the entry of degree `l` at scale `a` exceeds 1 if the comparison says so -/
theorem kval_nat_gt {p a l m : ℕ} (hp : 2 ≤ p) (hm : p ^ a = m) (hlm : l < m) (h : m < p * l)
    (hc : m * (p - 1) * Dyadic.up0 p < p * (m - l) * Dyadic.low p m l) : 1 < kval p 300 a l := by
  subst hm
  have hp2 : (2 : ℝ) ≤ p := by exact_mod_cast hp
  have hp1 : (1 : ℝ) < p := by linarith
  have hp0 : (0 : ℝ) < p := by linarith
  have h1 : (p : ℝ) ^ ((a : ℤ) - 1) < ((l : ℤ) : ℝ) := by
    rw [zpow_sub_one₀ hp0.ne', zpow_natCast, ← div_eq_mul_inv, div_lt_iff₀ hp0, mul_comm]
    exact_mod_cast h
  have h2 : ((l : ℤ) : ℝ) < (p : ℝ) ^ (a : ℤ) := by rw [zpow_natCast]; exact_mod_cast hlm
  rw [kval_band h1 h2]
  have e : ((l : ℤ) : ℝ) / (p : ℝ) ^ (a : ℤ) = (l : ℝ) / ((p ^ a : ℕ) : ℝ) := by
    rw [zpow_natCast]; push_cast; rfl
  rw [e, lt_div_iff₀ (quad_pos hp1 le_rfl ((div_lt_one hp0).2 hp1) (by norm_num)), one_mul]
  exact Dyadic.quad_gt_of_check hp hlm h hc

end S2wav
