import Verif.Lemmas.Ieee32
import Verif.Props.Ieee754

/-! # The rounding used for single precision is that of IEEE 754 (part of C115), as `Props/Ieee754.lean` for double precision -/

namespace S2wav.Single
open Classical

/-- the finite single precision numbers -/
def Sgl (x : ℝ) : Prop := ∃ m e : ℤ, |m| < 2 ^ 24 ∧ -149 ≤ e ∧ e ≤ 104 ∧ x = m * (2 : ℝ) ^ e

/-- from here on numbers are rounded to infinity -/
noncomputable def overflow : ℝ := 2 ^ (128 : ℤ) - 2 ^ (103 : ℤ)

/-- `r` is the rounding of `v`: a nearest single precision number, and in case of two nearest ones the one which is an even multiple of their distance -/
def Nearest (v : ℝ) : F64 → Prop
  | .fin y => |v| < overflow ∧ Sgl y ∧ (∀ z, Sgl z → |y - v| ≤ |z - v|) ∧
      ∀ z, Sgl z → |z - v| = |y - v| → z ≠ y → ∃ m e : ℤ, y = (2 * m : ℤ) * (2 : ℝ) ^ e ∧ |y - z| = 2 ^ e
  | .inf => overflow ≤ v
  | .ninf => v ≤ -overflow
  | .nan => False

theorem rnd_nearest {x z : ℝ} (hz : Rep z) : |rnd x - x| ≤ |z - x| := by
  have hu := ulp_pos x
  have key : ∀ k : ℤ, |rnd x - x| ≤ |k * ulp x - x| := by
    intro k
    have h := rne_nearest (x / ulp x) k
    have e1 : rnd x - x = ((rne (x / ulp x) : ℝ) - x / ulp x) * ulp x := by unfold rnd; field_simp
    have e2 : k * ulp x - x = ((k : ℝ) - x / ulp x) * ulp x := by field_simp
    rw [e1, e2, abs_mul, abs_mul]
    exact mul_le_mul_of_nonneg_right h (abs_nonneg _)
  rcases rep_at x hz with h | ⟨k, hk⟩ | ⟨h1, h2⟩
  · rw [h, rnd_zero, sub_self, abs_zero]; exact abs_nonneg _
  · rw [hk]; exact key k
  · have h3 := abs_lt.1 h1
    rcases le_total 0 x with hx | hx
    · rw [abs_of_nonneg hx] at h2
      have := key (2 ^ 23)
      push_cast at this
      refine this.trans ?_
      rw [abs_of_nonpos (by linarith), abs_of_nonpos (by linarith)]
      linarith
    · rw [abs_of_nonpos hx] at h2
      have := key (-2 ^ 23)
      push_cast at this
      refine this.trans ?_
      rw [abs_of_nonneg (by linarith), abs_of_nonneg (by linarith)]
      linarith

theorem rnd_tie {x z : ℝ} (hz : Rep z) (h : |z - x| = |rnd x - x|) (hne : z ≠ rnd x) :
    ∃ m e : ℤ, rnd x = (2 * m : ℤ) * (2 : ℝ) ^ e ∧ |rnd x - z| = 2 ^ e := by
  have hu := ulp_pos x
  rcases rep_at x hz with hx | ⟨k, hk⟩ | ⟨h1, h2⟩
  · rw [hx, rnd_zero, sub_self, abs_zero, sub_zero, abs_eq_zero] at h
    exact absurd (by rw [h, hx, rnd_zero]) hne
  · obtain ⟨e, -, he⟩ := ulp_exp x
    have e1 : rnd x - x = ((rne (x / ulp x) : ℝ) - x / ulp x) * ulp x := by unfold rnd; field_simp
    have e2 : z - x = ((k : ℝ) - x / ulp x) * ulp x := by rw [hk]; field_simp
    rw [e1, e2, abs_mul, abs_mul] at h
    have h := mul_right_cancel₀ (abs_pos.2 hu.ne').ne' h
    obtain ⟨⟨m, hm⟩, hd⟩ := rne_tie h (by rintro rfl; exact hne hk)
    refine ⟨m, e, ?_, ?_⟩
    · rw [← hm, ← he]; rfl
    · have : rnd x - z = ((rne (x / ulp x) - k : ℤ) : ℝ) * ulp x := by rw [hk]; unfold rnd; push_cast; ring
      rw [this, abs_mul, ← Int.cast_abs, hd, abs_of_pos hu, he]; simp
  · exfalso
    have h3 := abs_lt.1 h1
    obtain ⟨e, he0, he⟩ := ulp_exp x
    rcases le_total 0 x with hx | hx
    · rw [abs_of_nonneg hx] at h2
      have := rnd_nearest (x := x) (z := ((2 ^ 23 : ℤ) : ℝ) * ulp x) ⟨2 ^ 23, e, by norm_num, he0, by rw [he]⟩
      rw [← h] at this
      push_cast at this
      rw [abs_of_nonpos (by linarith), abs_of_nonpos (by linarith)] at this
      linarith
    · rw [abs_of_nonpos hx] at h2
      have := rnd_nearest (x := x) (z := ((-2 ^ 23 : ℤ) : ℝ) * ulp x) ⟨-2 ^ 23, e, by norm_num, he0, by rw [he]⟩
      rw [← h] at this
      push_cast at this
      rw [abs_of_nonneg (by linarith), abs_of_nonneg (by linarith)] at this
      linarith

theorem ulp_neg (x : ℝ) : ulp (-x) = ulp x := by unfold ulp; rw [abs_neg]

theorem rnd_neg (x : ℝ) : rnd (-x) = -rnd x := by
  unfold rnd; rw [ulp_neg, neg_div, rne_neg]; push_cast; ring

theorem Sgl.rep {x : ℝ} : Sgl x → Rep x := fun ⟨m, e, hm, he, _, h⟩ => ⟨m, e, hm.le, he, h⟩

/-- the powers of two around the overflow threshold, in terms of one of them -/
theorem top_powers : ∃ A : ℝ, 0 < A ∧ (2 : ℝ) ^ (103 : ℤ) = A ∧ (2 : ℝ) ^ (104 : ℤ) = 2 * A ∧ (2 : ℝ) ^ (128 : ℤ) = 33554432 * A := by
  refine ⟨_, two_zpow_pos 103, rfl, ?_, ?_⟩
  · rw [show (104 : ℤ) = 1 + 103 by norm_num, zpow_split, zpow_one]
  · rw [show (128 : ℤ) = 25 + 103 by norm_num, zpow_split]
    congr 1
    norm_num

theorem Sgl.lt {x : ℝ} : Sgl x → |x| ≤ 2 ^ (128 : ℤ) - 2 ^ (104 : ℤ) := by
  rintro ⟨m, e, hm, he, he', rfl⟩
  have h1 : |(m : ℝ)| ≤ 2 ^ 24 - 1 := by
    have : |m| ≤ 2 ^ 24 - 1 := by omega
    exact_mod_cast this
  have h2 : (2 : ℝ) ^ e ≤ 2 ^ (104 : ℤ) := zpow_le_zpow_right₀ (by norm_num) he'
  obtain ⟨A, hA, -, e1, e2⟩ := top_powers
  rw [abs_mul, abs_of_pos (two_zpow_pos e), e1, e2]
  rw [e1] at h2
  have hp := two_zpow_pos e
  generalize (2 : ℝ) ^ e = B at *
  have := mul_le_mul h1 h2 hp.le (by norm_num)
  linarith

theorem Rep.sgl {x : ℝ} (h : Rep x) (hx : |x| < 2 ^ (128 : ℤ)) : Sgl x := by
  rcases eq_or_ne x 0 with rfl | h0
  · exact ⟨0, 0, by norm_num, by norm_num, by norm_num, by simp⟩
  rcases lt_or_ge |x| ((2 : ℝ) ^ (-126 : ℤ)) with h1 | h1
  · obtain ⟨k, rfl⟩ := rep_small h
    refine ⟨k, -149, ?_, le_rfl, by norm_num, rfl⟩
    rw [abs_mul, abs_of_pos (two_zpow_pos (-149)), show (-126 : ℤ) = 23 + -149 by norm_num, zpow_split] at h1
    have := lt_of_mul_lt_mul_right h1 (two_zpow_pos (-149)).le
    have h2 : |(k : ℝ)| < 2 ^ 24 := this.trans (by norm_num)
    exact_mod_cast h2
  · obtain ⟨a1, a2⟩ := log_bounds h0
    set E := Int.log 2 |x|
    have hE : E < 128 := (zpow_lt_zpow_iff_right₀ (by norm_num : (1 : ℝ) < 2)).1 (a1.trans_lt hx)
    have hE' : -126 < E + 1 := (zpow_lt_zpow_iff_right₀ (by norm_num : (1 : ℝ) < 2)).1 (h1.trans_lt a2)
    obtain ⟨k, hk⟩ := rep_mult h a1
    refine ⟨k, E - 23, ?_, by omega, by omega, hk⟩
    rw [hk, abs_mul, abs_of_pos (two_zpow_pos (E - 23)), show E + 1 = 24 + (E - 23) by ring, zpow_split] at a2
    have := lt_of_mul_lt_mul_right a2 (two_zpow_pos (E - 23)).le
    have h2 : |(k : ℝ)| < 2 ^ 24 := this.trans_le (by norm_num)
    exact_mod_cast h2

theorem rnd_big {x : ℝ} : (2 : ℝ) ^ (128 : ℤ) ≤ rnd x ↔ overflow ≤ x := by
  obtain ⟨A, hA, e0, e1, e2⟩ := top_powers
  have hM : Rep (33554430 * A) := ⟨2 ^ 24 - 1, 104, by norm_num, by norm_num, by push_cast; rw [e1]; ring⟩
  have hT : Rep (33554432 * A) := e2 ▸ rep_pow (by norm_num)
  have hD : ∀ y, Rep y → |y| < 33554432 * A → |y| ≤ 33554430 * A := by
    intro y h1 h2
    have := (h1.sgl (by rw [e2]; exact h2)).lt
    rw [e1, e2] at this
    clear e0 e1 e2
    linarith
  unfold overflow
  rw [e2, e0]
  clear e2 e0 e1
  constructor
  · intro h
    by_contra hlt
    push Not at hlt
    have h1 := rnd_nearest (x := x) hM
    have h2 : |rnd x - x| = rnd x - x := abs_of_nonneg (by linarith)
    rw [h2] at h1
    rcases le_total x (33554430 * A) with h4 | h4
    · have h5 := rnd_le hM (x := x) h4
      linarith
    · rw [abs_of_nonpos (by linarith)] at h1
      linarith
  · intro h
    rcases le_or_gt (33554432 * A) x with h1 | h1
    · exact le_rnd hT h1
    by_contra hlt
    push Not at hlt
    have a1 : rnd x ≤ 33554430 * A :=
      (le_abs_self _).trans (hD _ (rep_rnd x) (by rw [abs_of_nonneg (rnd_nonneg (by linarith))]; exact hlt))
    have a2 : 33554430 * A ≤ rnd x := le_rnd hM (by linarith)
    have a3 := le_antisymm a1 a2
    have a4 := rnd_nearest (x := x) hT
    have hxm : |33554432 * A - x| = |rnd x - x| := by
      refine le_antisymm ?_ a4
      rw [a3, abs_of_nonneg (by linarith), abs_of_nonpos (by linarith)]
      linarith
    obtain ⟨m, e, h5, h6⟩ := rnd_tie hT hxm (ne_of_gt hlt)
    rw [abs_of_nonpos (by linarith), a3] at h6
    have h6 : 2 * A = 2 ^ e := by rw [← h6]; ring
    rw [a3, ← h6, show 33554430 * A = ((16777215 : ℤ) : ℝ) * (2 * A) by push_cast; ring] at h5
    have h5 := mul_right_cancel₀ (by positivity) h5
    have h5 : (16777215 : ℤ) = 2 * m := by exact_mod_cast h5
    omega

theorem rnd_small {x : ℝ} : rnd x ≤ -(2 : ℝ) ^ (128 : ℤ) ↔ x ≤ -overflow := by
  have := rnd_big (x := -x)
  rw [rnd_neg] at this
  constructor
  · intro h; linarith [this.1 (by linarith)]
  · intro h; linarith [this.2 (by linarith)]

theorem overflow_pos : 0 < overflow := by
  obtain ⟨A, hA, e0, e1, e2⟩ := top_powers
  unfold overflow
  rw [e2, e0]
  clear e0 e1 e2
  linarith

theorem of_nearest (v : ℝ) : Nearest v (of v) := by
  unfold of
  split_ifs with h1 h2
  · exact rnd_big.1 h1
  · exact rnd_small.1 h2
  · have a1 := lt_of_not_ge fun h => h1 (rnd_big.2 h)
    have a2 := lt_of_not_ge fun h => h2 (rnd_small.2 h)
    exact ⟨abs_lt.2 ⟨a2, a1⟩, (rep_rnd v).sgl (abs_lt.2 ⟨lt_of_not_ge h2, lt_of_not_ge h1⟩), fun z hz => rnd_nearest hz.rep,
      fun z hz h hne => rnd_tie hz.rep h hne⟩

theorem Nearest.unique {v : ℝ} {r r' : F64} (h : Nearest v r) (h' : Nearest v r') : r = r' := by
  have hp := overflow_pos
  cases r with
  | nan => exact h.elim
  | inf =>
    have h : overflow ≤ v := h
    cases r' with
    | nan => exact h'.elim
    | inf => rfl
    | ninf => have h' : v ≤ -overflow := h'; linarith
    | fin y => have := (abs_lt.1 h'.1).2; linarith
  | ninf =>
    have h : v ≤ -overflow := h
    cases r' with
    | nan => exact h'.elim
    | ninf => rfl
    | inf => have h' : overflow ≤ v := h'; linarith
    | fin y => have := (abs_lt.1 h'.1).1; linarith
  | fin x =>
    cases r' with
    | nan => exact h'.elim
    | inf => have h' : overflow ≤ v := h'; have := (abs_lt.1 h.1).2; linarith
    | ninf => have h' : v ≤ -overflow := h'; have := (abs_lt.1 h.1).1; linarith
    | fin y =>
      by_contra hne
      have hne : x ≠ y := fun e => hne (by rw [e])
      obtain ⟨-, dx, nx, tx⟩ := h
      obtain ⟨-, dy, ny, ty⟩ := h'
      have e := le_antisymm (nx y dy) (ny x dx)
      obtain ⟨m, a, hm, ha⟩ := tx y dy e.symm hne.symm
      obtain ⟨n, b, hn, hb⟩ := ty x dx e hne
      rw [abs_sub_comm, ha] at hb
      rw [← hb] at hn
      rw [hm, hn, ← sub_mul, abs_mul, abs_of_pos (two_zpow_pos a)] at ha
      have ha : |((2 * m : ℤ) : ℝ) - (2 * n : ℤ)| = 1 := by
        have := mul_right_cancel₀ (two_zpow_pos a).ne' (ha.trans (one_mul _).symm)
        exact this
      have ha : |2 * m - 2 * n| = 1 := by exact_mod_cast ha
      rcases abs_cases (2 * m - 2 * n) with h | h <;> omega

/-- **C115** `of` is rounding to nearest, ties to even, with overflow: there is exactly one single precision number as the specification asks, and it is this one. -/
theorem C115_rounding (v : ℝ) (r : F64) : Nearest v r ↔ of v = r :=
  ⟨fun h => (of_nearest v).unique h, fun h => h ▸ of_nearest v⟩

/-- **C115** single precision numbers are rounded to themselves -/
theorem sgl_of {x : ℝ} (h : Sgl x) : of x = .fin x := by
  refine (C115_rounding x _).1 ⟨?_, h, fun z _ => by simp, fun z _ hz hne => ?_⟩
  · have := h.lt
    obtain ⟨A, hA, e0, e1, e2⟩ := top_powers
    unfold overflow
    rw [e2, e0]
    rw [e1, e2] at this
    clear e0 e1 e2
    linarith
  · rw [sub_self, abs_zero, abs_eq_zero, sub_eq_zero] at hz
    exact absurd hz hne

end S2wav.Single
