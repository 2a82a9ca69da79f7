import Verif.Props.Filters

/-! # Which calls return (C64, C65) and error branches of `j_max` (C01) -/

namespace S2wav
open Classical

/-- **C01**, error branches: exactly which exception `int(np.ceil(np.log(L) / np.log(lam)))` raises, for all integers `L` and
all real `lam`. -/
theorem C01_errors (L : ℤ) (lam : ℝ) :
    (j_max L lam = .error .valueError ↔ L < 0 ∨ lam < 0 ∨ (L = 0 ∧ lam = 0) ∨ (L = 1 ∧ lam = 1)) ∧
    (j_max L lam = .error .overflow ↔ (L = 0 ∧ 0 < lam) ∨ (2 ≤ L ∧ lam = 1)) ∧
    ((∃ J, j_max L lam = .ok J) ↔ 1 ≤ L ∧ 0 ≤ lam ∧ lam ≠ 1) ∧
    (∀ J, j_max L lam = .ok J → lam < 1 → J ≤ 0) := by
  rcases lt_trichotomy L 0 with hL | hL | hL
  · have e : j_max L lam = .error .valueError := by unfold j_max; rw [if_pos (Or.inl hL)]
    rw [e]
    refine ⟨⟨fun _ => Or.inl hL, fun _ => rfl⟩, ⟨fun h => (by cases h), fun h => by omega⟩,
      ⟨fun h => (by obtain ⟨_, h⟩ := h; cases h), fun h => by omega⟩, fun J h => (by cases h)⟩
  all_goals
    rcases lt_trichotomy lam 0 with hl | hl | hl
    · have e : j_max L lam = .error .valueError := by unfold j_max; rw [if_pos (Or.inr hl)]
      rw [e]
      refine ⟨⟨fun _ => Or.inr (Or.inl hl), fun _ => rfl⟩, ⟨fun h => (by cases h), fun h => ?_⟩,
        ⟨fun h => (by obtain ⟨_, h⟩ := h; cases h), fun h => absurd h.2.1 (not_le.2 hl)⟩, fun J h => (by cases h)⟩
      rcases h with h | h <;> linarith [h.2]
  · subst hL hl
    have e : j_max 0 0 = .error .valueError := by unfold j_max; simp
    rw [e]
    simp
  · subst hL
    have e : j_max 0 lam = .error .overflow := by
      unfold j_max
      rw [if_neg (by rintro (h | h); · omega
                     · linarith), if_neg hl.ne', if_pos rfl]
    rw [e]
    refine ⟨⟨fun h => (by cases h), fun h => ?_⟩, ⟨fun _ => Or.inl ⟨rfl, hl⟩, fun _ => rfl⟩,
      ⟨fun h => (by obtain ⟨_, h⟩ := h; cases h), fun h => by omega⟩, fun J h => (by cases h)⟩
    rcases h with h | h | h | h
    · omega
    · linarith
    · exact absurd h.2 hl.ne'
    · omega
  · subst hl
    have e : j_max L 0 = .ok 0 := by
      unfold j_max
      rw [if_neg (by rintro (h | h); · omega
                     · linarith), if_pos rfl, if_neg hL.ne']
    rw [e]
    refine ⟨⟨fun h => (by cases h), fun h => ?_⟩, ⟨fun h => (by cases h), fun h => ?_⟩,
      ⟨fun _ => ⟨by omega, le_rfl, by norm_num⟩, fun _ => ⟨0, rfl⟩⟩, fun J h _ => (by cases h; exact le_rfl)⟩
    · rcases h with h | h | h | h
      · omega
      · linarith
      · omega
      · norm_num at h
    · rcases h with h | h
      · linarith [h.2]
      · norm_num at h
  · by_cases h1 : lam = 1
    · subst h1
      by_cases h2 : L = 1
      · subst h2
        have e : j_max 1 1 = .error .valueError := by unfold j_max; norm_num
        rw [e]
        simp
      · have e : j_max L 1 = .error .overflow := by
          unfold j_max
          rw [if_neg (by rintro (h | h); · omega
                         · norm_num at h), if_neg (by norm_num), if_neg hL.ne', if_pos rfl, if_neg h2]
        rw [e]
        refine ⟨⟨fun h => (by cases h), fun h => ?_⟩, ⟨fun _ => Or.inr ⟨by omega, rfl⟩, fun _ => rfl⟩,
          ⟨fun h => (by obtain ⟨_, h⟩ := h; cases h), fun h => absurd rfl h.2.2⟩, fun J h => (by cases h)⟩
        rcases h with h | h | h | h
        · omega
        · norm_num at h
        · omega
        · exact absurd h.1 h2
    · have e : j_max L lam = .ok ⌈Real.log L / Real.log lam⌉ := by
        unfold j_max
        rw [if_neg (by rintro (h | h); · omega
                       · linarith), if_neg hl.ne', if_neg hL.ne', if_neg h1]
      rw [e]
      refine ⟨⟨fun h => (by cases h), fun h => ?_⟩, ⟨fun h => (by cases h), fun h => ?_⟩,
        ⟨fun _ => ⟨by omega, hl.le, h1⟩, fun _ => ⟨_, rfl⟩⟩, fun J h hlt => ?_⟩
      · rcases h with h | h | h | h
        · omega
        · linarith
        · exact absurd h.2 hl.ne'
        · exact absurd h.2 h1
      · rcases h with h | h
        · omega
        · exact absurd h.2 h1
      · cases h
        rw [Int.ceil_le, Int.cast_zero]
        exact div_nonpos_of_nonneg_of_nonpos (Real.log_nonneg (by exact_mod_cast hL)) (Real.log_nonpos hl.le hlt.le)

example : j_max 5 1 = .error .overflow ∧ j_max 1 1 = .error .valueError ∧ j_max 0 2 = .error .overflow :=
  ⟨(C01_errors 5 1).2.1.2 (by norm_num), (C01_errors 1 1).1.2 (by norm_num), (C01_errors 0 2).2.1.2 (by norm_num)⟩

/-- a scale below the top one is a scale at which something is above the support edge -/
theorem lt_top_iff {L J j : ℤ} {lam : ℝ} (hL : 1 ≤ L) (hlam : 1 < lam) (hJ : j_max L lam = .ok J) :
    j < J ↔ lam ^ j < L := by
  obtain ⟨-, h1, h2⟩ := j_max_spec hL hlam hJ
  constructor
  · intro h
    by_contra hc
    have := h2 j (not_lt.1 hc)
    omega
  · intro h
    by_contra hc
    have := zpow_mono' hlam (not_lt.1 hc)
    linarith

/-- no builder gets past the scale check unless `lam > 1` and `1 ≤ lam^J_min < L` -/
theorem scale_check {L J J_min : ℤ} {lam : ℝ} (hJ : j_max L lam = .ok J) (h : ¬ (J_min ≥ J ∨ J_min < 0)) :
    1 < lam ∧ 0 ≤ J_min ∧ lam ^ J_min < L := by
  obtain ⟨-, -, h3, h4⟩ := C01_errors L lam
  obtain ⟨h5, h6, h7⟩ := h3.1 ⟨J, hJ⟩
  have hlam : 1 < lam := by
    by_contra hc
    have := h4 J hJ (lt_of_le_of_ne (not_lt.1 hc) h7)
    omega
  exact ⟨hlam, by omega, (lt_top_iff h5 hlam hJ).1 (by omega)⟩

theorem scale_check' {L J_min : ℤ} {lam : ℝ} (h1 : 1 < lam) (h2 : 0 ≤ J_min) (h3 : lam ^ J_min < L) :
    ∃ J, TopScale j_max L lam J ∧ J_min < J := by
  have hL : 1 ≤ L := by
    have : (0 : ℝ) < L := (zpow_pos' h1 J_min).trans h3
    exact_mod_cast this
  have hJ := j_max_eq hL h1
  exact ⟨_, TopScale.of_j_max hL h1 hJ, (lt_top_iff hL h1 hJ).2 h3⟩

/-- **C64** the exact domain of the axisymmetric builders, over all integers and all real `lam`: they return exactly when
`lam > 1`, `J_min ≥ 0` and `lam ** J_min < L`. -/
theorem C64_axisym (L J_min : ℤ) (lam : ℝ) :
    ((∃ r, filters_axisym j_max L J_min lam = .ok r) ↔ 1 < lam ∧ 0 ≤ J_min ∧ lam ^ J_min < L) ∧
    ((∃ r, filters_axisym_vectorised j_max L J_min lam = .ok r) ↔ 1 < lam ∧ 0 ≤ J_min ∧ lam ^ J_min < L) ∧
    ((∃ r, filters_axisym_jax j_max L J_min lam = .ok r) ↔ 1 < lam ∧ 0 ≤ J_min ∧ lam ^ J_min < L) := by
  refine ⟨⟨?_, ?_⟩, ⟨?_, ?_⟩, ⟨?_, ?_⟩⟩
  · rintro ⟨r, h⟩
    unfold filters_axisym at h
    obtain ⟨J, hJ, h⟩ := Py.bind_eq_ok.1 h
    by_cases hc : J_min ≥ J ∨ J_min < 0
    · rw [if_pos hc] at h; cases h
    · exact scale_check hJ hc
  · rintro ⟨h1, h2, h3⟩
    obtain ⟨J, hT, hlt⟩ := scale_check' h1 h2 h3
    obtain ⟨p, hp, -⟩ := filters_axisym_ok hT h2 hlt
    exact ⟨_, hp⟩
  · rintro ⟨r, h⟩
    unfold filters_axisym_vectorised at h
    obtain ⟨J, hJ, h⟩ := Py.bind_eq_ok.1 h
    by_cases hc : J_min ≥ J ∨ J_min < 0
    · rw [if_pos hc] at h; cases h
    · exact scale_check hJ hc
  · rintro ⟨h1, h2, h3⟩
    obtain ⟨J, hT, hlt⟩ := scale_check' h1 h2 h3
    exact ⟨_, filters_axisym_vectorised_ok hT h2 hlt⟩
  · rintro ⟨r, h⟩
    unfold filters_axisym_jax at h
    obtain ⟨J, hJ, h⟩ := Py.bind_eq_ok.1 h
    by_cases hc : J_min ≥ J ∨ J_min < 0
    · rw [if_pos hc] at h; cases h
    · exact scale_check hJ hc
  · rintro ⟨h1, h2, h3⟩
    obtain ⟨J, hT, hlt⟩ := scale_check' h1 h2 h3
    exact ⟨_, (filters_axisym_jax_eq hT J_min).trans (filters_axisym_vectorised_ok hT h2 hlt)⟩

example : (∃ r, filters_axisym_jax j_max 9 3 2 = .ok r) ∧ ¬ (∃ r, filters_axisym_jax j_max 8 3 2 = .ok r) ∧
    ¬ ∃ r, filters_axisym_jax j_max 9 0 (1 / 2) = .ok r := by
  refine ⟨(C64_axisym 9 3 2).2.2.2 (by norm_num), fun h => ?_, fun h => ?_⟩
  · have := (C64_axisym 8 3 2).2.2.1 h; norm_num at this
  · have := (C64_axisym 9 0 (1 / 2)).2.2.1 h; norm_num at this

/-- **C64** and of the directional builders (`N ≥ 1`), which for `spin0 ≠ 0` is empty except for the looped one -/
theorem C64_directional (L : ℤ) {N : ℤ} (hN : 1 ≤ N) (J_min : ℤ) (lam : ℝ) (spin spin0 : ℤ) :
    ((∃ r, filters_directional j_max L N J_min lam spin spin0 = .ok r) ↔ 1 < lam ∧ 0 ≤ J_min ∧ lam ^ J_min < L) ∧
    ((∃ r, filters_directional_vectorised j_max L N J_min lam spin spin0 = .ok r) ↔
      (1 < lam ∧ 0 ≤ J_min ∧ lam ^ J_min < L) ∧ spin0 = 0) ∧
    ((∃ r, filters_directional_jax j_max L N J_min lam spin spin0 = .ok r) ↔
      (1 < lam ∧ 0 ≤ J_min ∧ lam ^ J_min < L) ∧ spin0 = 0) := by
  refine ⟨⟨?_, ?_⟩, ⟨?_, ?_⟩, ⟨?_, ?_⟩⟩
  · rintro ⟨r, h⟩
    unfold filters_directional at h
    obtain ⟨_, -, h⟩ := Py.bind_eq_ok.1 h
    obtain ⟨_, -, h⟩ := Py.bind_eq_ok.1 h
    obtain ⟨_, -, h⟩ := Py.bind_eq_ok.1 h
    obtain ⟨k, hk, -⟩ := Py.bind_eq_ok.1 h
    exact (C64_axisym L J_min lam).1.1 ⟨k, hk⟩
  · rintro ⟨h1, h2, h3⟩
    obtain ⟨J, hT, hlt⟩ := scale_check' h1 h2 h3
    obtain ⟨p, _, hp, -⟩ := filters_directional_ok hT hN h2 hlt spin spin0
    exact ⟨_, hp⟩
  · rintro ⟨r, h⟩
    by_cases hs : spin0 = 0
    · refine ⟨?_, hs⟩
      subst hs
      unfold filters_directional_vectorised at h
      simp only [ne_eq, not_true_eq_false, if_false, Py.bind_ok] at h
      obtain ⟨k, hk, -⟩ := Py.bind_eq_ok.1 h
      exact (C64_axisym L J_min lam).2.1.1 ⟨k, hk⟩
    · rw [(filters_directional_spin0_err j_max L N J_min lam spin hs).1] at h; cases h
  · rintro ⟨⟨h1, h2, h3⟩, rfl⟩
    obtain ⟨J, hT, hlt⟩ := scale_check' h1 h2 h3
    exact ⟨_, filters_directional_vectorised_ok hT hN h2 hlt spin⟩
  · rintro ⟨r, h⟩
    by_cases hs : spin0 = 0
    · refine ⟨?_, hs⟩
      subst hs
      unfold filters_directional_jax at h
      simp only [ne_eq, not_true_eq_false, if_false, Py.bind_ok] at h
      obtain ⟨k, hk, -⟩ := Py.bind_eq_ok.1 h
      exact (C64_axisym L J_min lam).2.2.1 ⟨k, hk⟩
    · rw [(filters_directional_spin0_err j_max L N J_min lam spin hs).2] at h; cases h
  · rintro ⟨⟨h1, h2, h3⟩, rfl⟩
    obtain ⟨J, hT, hlt⟩ := scale_check' h1 h2 h3
    exact ⟨_, filters_directional_jax_ok hT hN h2 hlt spin⟩

example : (∃ r, filters_directional j_max 9 2 3 2 0 1 = .ok r) ∧ ¬ ∃ r, filters_directional_vectorised j_max 9 2 3 2 0 1 = .ok r := by
  refine ⟨(C64_directional 9 (by norm_num) 3 2 0 1).1.2 (by norm_num), fun h => ?_⟩
  have := ((C64_directional 9 (by norm_num) 3 2 0 1).2.1.1 h).2
  norm_num at this

/-- **C65** the unused `_part_scaling_fn_jax` is the same quadrature as `part_scaling_fn`: for all distinct end points (including
which calls raise), and for every call `k_lam` makes. -/
theorem C65_part_scaling_fn_jax (n : ℤ) (lam : ℝ) :
    (∀ a b, a ≠ b → lam ≠ 0 → part_scaling_fn_jax a b n lam = part_scaling_fn a b n lam) ∧
    (∀ a, 1 < lam → 1 / lam ≤ a → a ≤ 1 → 1 ≤ n → part_scaling_fn_jax a 1 n lam = part_scaling_fn a 1 n lam) := by
  have key : ∀ a b, a ≠ b → lam ≠ 0 → part_scaling_fn_jax a b n lam = part_scaling_fn a b n lam := by
    intro a b hab h0
    unfold part_scaling_fn_jax part_scaling_fn
    refine congrArg _ (funext fun h => ?_)
    have hd : pyDiv 1 lam = .ok (1 / lam) := by rw [pyDiv, if_neg h0]
    rw [if_neg hab]
    simp only [hd, Py.bind_ok]
    refine congrArg (fun f => (pyRange 0 n).foldlM f (0 : ℝ)) (funext fun s => funext fun i => ?_)
    push_cast
    by_cases hc : a + i * h = 1 / lam ∨ a + i * h = 1 ∨ a + (i + 1) * h = 1 / lam ∨ a + (i + 1) * h = 1
    · rw [if_pos hc, if_neg (by tauto)]; simp
    · rw [if_neg hc, if_pos (by tauto)]
  refine ⟨key, fun a hlam h1 h2 hn => ?_⟩
  rcases eq_or_ne a 1 with rfl | h
  · unfold part_scaling_fn_jax part_scaling_fn
    have hd : pyDiv 1 lam = .ok (1 / lam) := by rw [pyDiv, if_neg (by linarith)]
    have hn' : pyDiv (1 - 1) n = .ok 0 := by
      rw [pyDiv, if_neg (by exact_mod_cast (by omega : n ≠ 0))]; simp
    rw [hn', hd]
    simp only [Py.bind_ok, if_true, mul_zero, add_zero, or_true, zero_div]
    induction (pyRange 0 n) with
    | nil => rfl
    | cons x xs ih => rw [List.foldlM_cons]; exact ih
  · exact key a 1 h (by linarith)

example : part_scaling_fn_jax (3 / 4) 1 300 2 = part_scaling_fn (3 / 4) 1 300 2 ∧
    ∃ x, part_scaling_fn (3 / 4) 1 300 2 = .ok x ∧ 0 < x :=
  ⟨(C65_part_scaling_fn_jax 300 2).2 _ (by norm_num) (by norm_num) (by norm_num) (by norm_num), _,
    part_scaling_fn_ok (by norm_num) (by norm_num) (by norm_num) (by norm_num),
    quad_pos (by norm_num) (by norm_num) (by norm_num) (by norm_num)⟩

/-- **C18** outside `0 ≤ k ≤ n`: one step outside both versions give 0, further out (and for `n < 0`) the NumPy version gives NaN
and the JAX version 0 for `n ≥ 0` -/
theorem C18_out_of_range (n k : ℤ) :
    (0 ≤ n → (k = -1 ∨ k = n + 1) → binomial_coefficient n k = .ok 0) ∧
    (n < 0 ∨ k < -1 ∨ n + 1 < k → binomial_coefficient n k = .error .nan) ∧
    (0 ≤ n → k < 0 ∨ n < k → binomial_coefficient_jax n k = 0) := by
  refine ⟨fun h0 hk => ?_, fun h => ?_, fun h0 hk => ?_⟩
  · unfold binomial_coefficient
    rw [if_neg, if_pos]
    · rcases hk with rfl | rfl
      · left; push_cast; ring
      · right; push_cast; ring
    · have : ¬ (n + 1 ≤ 0 ∨ k + 1 < 0 ∨ n - k + 1 < 0) := by omega
      exact_mod_cast this
  · unfold binomial_coefficient
    rw [if_pos]
    have : n + 1 ≤ 0 ∨ k + 1 < 0 ∨ n - k + 1 < 0 := by omega
    exact_mod_cast this
  · unfold binomial_coefficient_jax
    rw [if_pos]
    rcases hk with hk | hk
    · refine Or.inl ⟨(-k - 1).toNat, ?_⟩
      have : k + 1 = -((-k - 1).toNat : ℤ) := by omega
      exact_mod_cast this
    · refine Or.inr ⟨(k - n - 1).toNat, ?_⟩
      have : n - k + 1 = -((k - n - 1).toNat : ℤ) := by omega
      exact_mod_cast this

example : binomial_coefficient 3 4 = .ok 0 ∧ binomial_coefficient 3 5 = .error .nan ∧ binomial_coefficient_jax 3 5 = 0 := by
  have h := C18_out_of_range 3 4
  have h' := C18_out_of_range 3 5
  exact ⟨by exact_mod_cast h.1 (by norm_num) (by norm_num), by exact_mod_cast h'.2.1 (by norm_num), by exact_mod_cast h'.2.2 (by norm_num) (by norm_num)⟩

end S2wav
