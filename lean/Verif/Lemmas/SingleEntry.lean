import Verif.Lemmas.SingleErr

/-! # The harmonic-space steps in single precision, entry by entry -/

namespace S2wav.Single
open Classical

/-! ### bounds by powers of two -/

theorem p2_up {x : ℝ} {a : ℤ} {k : ℕ} (c : ℤ) (hk : k ≤ 2 ^ 18) (hx : x ≤ 2 ^ a) (h0 : 0 ≤ x) (h : a + 1 ≤ c) :
    (1 + uu) ^ k * x ≤ (2 : ℝ) ^ c :=
  p2_mul c ((up_le_two hk).trans (by norm_num : (2 : ℝ) ≤ 2 ^ (1 : ℤ))) hx h0 (by omega)

theorem eta_le : eta ≤ (2 : ℝ) ^ (0 : ℤ) := p2_mono (by norm_num)

/-! ### single entries -/

variable {O : Ops C64 F64}

/-- one Wigner coefficient -/
theorem ana_entry (hO : Good O) {l : ℤ} (hl0 : 0 ≤ l) (hl1 : l < 2 ^ 23) {f p : ℂ} (hf : ‖f‖ ≤ 2 ^ (20 : ℤ)) (hp : ‖p‖ ≤ 2 ^ (12 : ℤ)) :
    ∃ z, O.add 0 (O.mul (.ofC f) (O.mul (O.conj (.ofC p)) (O.ofReal (O.c8 l)))) = .ofC z ∧
      Nr 5 (‖f‖ * (‖p‖ * k8 l)) (‖f‖ * (‖p‖ * k8 l + eta) + eta + eta) z (f * ((starRingEnd ℂ) p * (k8 l : ℂ))) := by
  obtain ⟨kp, kb⟩ := k8_bounds hl0
  have he := eta_pos
  obtain ⟨c, hc, hce⟩ := hO.c8 l hl0 hl1
  have n1 : Nr 2 (k8 l) (k8 l) (c : ℂ) (k8 l : ℂ) := Nr.const 2 kp.le (by push_cast; exact hce)
  have n2 : Nr 0 ‖p‖ ‖p‖ ((starRingEnd ℂ) p) ((starRingEnd ℂ) p) := Nr.refl (by simp)
  obtain ⟨a, ha, hae⟩ := hO.mul ((starRingEnd ℂ) p) c (by rw [RCLike.norm_conj]; exact hp.trans (p2_mono (by norm_num)))
    (n1.norm_le.trans (p2_up _ (by norm_num) kb kp.le (by norm_num)))
  have n3 := n2.mul n1 hae
  have hT : ‖p‖ * k8 l + eta ≤ 2 ^ (20 : ℤ) :=
    p2_add (a := 19) _ (p2_mul _ hp kb kp.le (by norm_num)) eta_le (by norm_num) (by norm_num)
  have hT0 : 0 ≤ ‖p‖ * k8 l + eta := by positivity
  obtain ⟨b, hb, hbe⟩ := hO.mul f a (hf.trans (p2_mono (by norm_num)))
    (n3.norm_le.trans (p2_up _ (by norm_num) hT hT0 (by norm_num)))
  have n4 := (Nr.refl (le_refl ‖f‖)).mul n3 hbe
  have hT' : ‖f‖ * (‖p‖ * k8 l + eta) + eta ≤ 2 ^ (41 : ℤ) :=
    p2_add (a := 40) _ (p2_mul _ hf hT hT0 (by norm_num)) eta_le (by norm_num) (by norm_num)
  obtain ⟨z, hz, hze⟩ := hO.add 0 b (by rw [norm_zero]; positivity)
    (n4.norm_le.trans (p2_up _ (by norm_num) hT' (by positivity) (by norm_num)))
  have n5 := ((Nr.refl (x := 0) (A := 0) (by simp)).mono (Nat.zero_le _) le_rfl).add n4 hze
  refine ⟨z, ?_, ?_⟩
  · rw [hc, hO.ofReal, hO.conj, ha, hb, ← ofC_zero, hz]
  · simp only [zero_add] at n5
    exact n5

/-- the normalised scaling filter -/
theorem phi_entry (hO : Good O) {l : ℤ} (hl0 : 0 ≤ l) (hl1 : l < 2 ^ 23) {q : ℝ} (hq : |q| ≤ 2 ^ (12 : ℤ)) :
    ∃ z, O.ofReal (O.rmul (.fin q) (O.c4 l)) = .ofC z ∧ Nr 2 (|q| * k4 l) (|q| * k4 l + eta) z ((q * k4 l : ℝ) : ℂ) := by
  obtain ⟨kp, kb⟩ := k4_bounds hl0
  have he := eta_pos
  obtain ⟨c, hc, hce⟩ := hO.c4 l hl0 hl1
  have n1 : Nr 1 (k4 l) (k4 l) (c : ℂ) (k4 l : ℂ) := Nr.const 1 kp.le (by push_cast; rw [one_mul]; exact hce)
  have hcn := n1.norm_le.trans (p2_up 45 (by norm_num) kb kp.le (by norm_num))
  rw [Complex.norm_real, Real.norm_eq_abs] at hcn
  obtain ⟨a, ha, hae⟩ := hO.rmul q c (hq.trans (p2_mono (by norm_num))) hcn
  have n3 := (Nr.refl (x := (q : ℂ)) (A := |q|) (by simp)).mul n1 (z := (a : ℂ)) (by
    rw [← Complex.ofReal_mul, ← Complex.ofReal_sub, Complex.norm_real, Complex.norm_real, Complex.norm_real]; exact hae)
  refine ⟨a, by rw [hc, ha, hO.ofReal], ?_⟩
  push_cast
  exact n3

/-- one scaling coefficient; also the scaling part of the synthesis -/
theorem scal_entry (hO : Good O) {l : ℤ} (hl0 : 0 ≤ l) (hl1 : l < 2 ^ 23) {q : ℝ} (hq : |q| ≤ 2 ^ (12 : ℤ)) {k : ℕ} (hk : k ≤ 2 ^ 16) {A T : ℝ} {f' f : ℂ}
    (h : Nr k A T f' f) (hT : T ≤ 2 ^ (42 : ℤ)) :
    ∃ z, O.mul (.ofC f') (O.ofReal (O.rmul (.fin q) (O.c4 l))) = .ofC z ∧
      Nr (k + 3) (A * (|q| * k4 l)) (T * (|q| * k4 l + eta) + eta) z (f * ((q * k4 l : ℝ) : ℂ)) ∧
      T * (|q| * k4 l + eta) + eta ≤ 2 ^ (58 : ℤ) := by
  obtain ⟨kp, kb⟩ := k4_bounds hl0
  have he := eta_pos
  obtain ⟨a, ha, n⟩ := phi_entry hO hl0 hl1 hq
  have hq1 : |q| * k4 l + eta ≤ 2 ^ (15 : ℤ) :=
    p2_add (a := 14) _ (p2_mul _ hq kb kp.le (by norm_num)) eta_le (by norm_num) (by norm_num)
  obtain ⟨z, hz, hze⟩ := hO.mul f' a (h.norm_le.trans (p2_up _ (by omega) hT h.nonneg.2 (by norm_num)))
    (n.norm_le.trans (p2_up _ (by norm_num) hq1 (by positivity) (by norm_num)))
  refine ⟨z, by rw [ha, hz], ?_, ?_⟩
  · have := h.mul n hze
    rwa [show k + 2 + 1 = k + 3 by ring] at this
  · exact p2_add (a := 57) _ (p2_mul _ hT hq1 (by positivity) (by norm_num)) eta_le (by norm_num) (by norm_num)

/-- the sum over directions -/
theorem dot_entry (hO : Good O) {L Lj Nj j l m : ℤ} (hN0 : 0 ≤ Nj) (hN : Nj ≤ 2 ^ 16) {psi t t' : Arr3 ℂ}
    (hp : ∀ k, ‖psi.v j l k‖ ≤ 2 ^ (12 : ℤ)) {kt : ℕ} (hkt : kt ≤ 2 ^ 16) {A T : ℤ → ℝ}
    (h : ∀ k, 0 ≤ k → k < Nj → Nr kt (A k) (T k) (t'.v (2 * k) l (m - (L - Lj))) (t.v (2 * k) l (m - (L - Lj))))
    (hT : ∀ k, 0 ≤ k → k < Nj → T k ≤ 2 ^ (42 : ℤ)) :
    ∃ z, dotO O L Lj Nj (psi.map C64.ofC) j (t'.map C64.ofC) l m = .ofC z ∧
      Nr (kt + Nj.toNat + 1) (∑ k ∈ Finset.Ico 0 Nj, ‖psi.v j l (L - Nj + 2 * k)‖ * A k)
        (∑ k ∈ Finset.Ico 0 Nj, ‖psi.v j l (L - Nj + 2 * k)‖ * T k + 2 * Nj * eta) z
        (∑ k ∈ Finset.Ico 0 Nj, psi.v j l (L - Nj + 2 * k) * t.v (2 * k) l (m - (L - Lj))) := by
  have hlen : (pyRange 0 Nj).length = Nj.toNat := by rw [length_pyRange]; congr 1; omega
  have hlenR : ((pyRange 0 Nj).length : ℝ) = Nj := by
    rw [hlen]
    have : ((Nj.toNat : ℤ) : ℝ) = Nj := by rw [Int.toNat_of_nonneg hN0]
    exact_mod_cast this
  obtain ⟨z, hz, hze⟩ := hO.dot ((pyRange 0 Nj).map fun k => (psi.v j l (L - Nj + 2 * k), t'.v (2 * k) l (m - (L - Lj))))
    (by rw [List.length_map, hlen]; omega) (by
      intro p hpm
      rw [List.mem_map] at hpm
      obtain ⟨k, hk, rfl⟩ := hpm
      rw [mem_pyRange] at hk
      exact ⟨(hp _).trans (p2_mono (by norm_num)), (h k hk.1 hk.2).norm_le.trans
        (p2_up _ (by omega) (hT k hk.1 hk.2) (h k hk.1 hk.2).nonneg.2 (by norm_num))⟩)
  simp only [List.map_map, Function.comp_def, List.length_map] at hz hze
  refine ⟨z, ?_, ?_⟩
  · unfold dotO
    rw [← hz]
    congr 1
    refine map_range_congr fun k _ _ => ?_
    rw [map_ofC3, map_ofC3]
  · have := Nr.dot (pyRange 0 Nj) (k := 0) (k' := kt) (a := fun k => psi.v j l (L - Nj + 2 * k))
      (b := fun k => t.v (2 * k) l (m - (L - Lj))) (a' := fun k => psi.v j l (L - Nj + 2 * k))
      (b' := fun k => t'.v (2 * k) l (m - (L - Lj))) (A := fun k => ‖psi.v j l (L - Nj + 2 * k)‖)
      (T := fun k => ‖psi.v j l (L - Nj + 2 * k)‖) (B := A) (S := T)
      (fun k _ => Nr.refl le_rfl) (fun k hk => by rw [mem_pyRange] at hk; exact h k hk.1 hk.2) hze
    rw [sum_pyRange, sum_pyRange, sum_pyRange, hlenR, hlen, zero_add] at this
    exact this.mono (by omega) le_rfl

/-- adding up the scales -/
theorem loop_entry (hO : Good O) {J_min : ℤ} {P : ℤ → Prop} {D : ℤ → C64} {d d' : ℤ → ℂ} {A T : ℤ → ℝ} {K : ℕ} (hK : K ≤ 2 ^ 17 + 2 ^ 16) (n : ℕ) (hn : n ≤ 2 ^ 16)
    (h : ∀ j, J_min ≤ j → j < J_min + n → P j → D j = .ofC (d' j) ∧ Nr K (A j) (T j) (d' j) (d j) ∧ T j ≤ 2 ^ (72 : ℤ)) :
    ∃ z, (pyRange J_min (J_min + n)).foldl (fun g j => if P j then O.add g (D j) else g) 0 = .ofC z ∧
      Nr (K + n) (∑ j ∈ Finset.Ico J_min (J_min + n), if P j then A j else 0)
        (∑ j ∈ Finset.Ico J_min (J_min + n), if P j then T j + eta else 0) z
        (∑ j ∈ Finset.Ico J_min (J_min + n), if P j then d j else 0) ∧
      (∑ j ∈ Finset.Ico J_min (J_min + n), if P j then T j + eta else 0) ≤ n * 2 ^ (73 : ℤ) := by
  induction n with
  | zero =>
    refine ⟨0, by simp [pyRange_empty]; rfl, ?_, by simp⟩
    simp only [Nat.cast_zero, add_zero, Finset.Ico_self, Finset.sum_empty]
    exact (Nr.refl (x := 0) (A := 0) (by simp)).mono (Nat.zero_le _) le_rfl
  | succ n ih =>
    obtain ⟨z, hz, n1, hb⟩ := ih (by omega) fun j h0 h1 => h j h0 (by push_cast; omega)
    have e : J_min + ((n + 1 : ℕ) : ℤ) = J_min + n + 1 := by push_cast; ring
    have e2 : Finset.Ico J_min (J_min + n + 1) = insert (J_min + n : ℤ) (Finset.Ico J_min (J_min + n)) := by
      ext x; simp only [Finset.mem_Ico, Finset.mem_insert]; omega
    have hni : (J_min + n : ℤ) ∉ Finset.Ico J_min (J_min + n) := by simp
    rw [e, pyRange_snoc (by omega), List.foldl_append, hz, List.foldl_cons, List.foldl_nil, e2, Finset.sum_insert hni,
      Finset.sum_insert hni, Finset.sum_insert hni]
    have h73 : (0 : ℝ) ≤ 2 ^ (73 : ℤ) := by positivity
    by_cases hP : P (J_min + n)
    · obtain ⟨g1, g2, g3⟩ := h (J_min + n) (by omega) (by push_cast; omega) hP
      have hnb : (n : ℝ) ≤ 2 ^ (16 : ℤ) := by
        have : (n : ℝ) ≤ ((2 ^ 16 : ℕ) : ℝ) := by exact_mod_cast (by omega : n ≤ 2 ^ 16)
        refine this.trans (le_of_eq ?_); norm_num
      have hb' : (∑ j ∈ Finset.Ico J_min (J_min + n), if P j then T j + eta else 0) ≤ 2 ^ (89 : ℤ) :=
        hb.trans (p2_mul _ hnb le_rfl h73 (by norm_num))
      obtain ⟨y, hy, hye⟩ := hO.add z (d' (J_min + n)) (n1.norm_le.trans (p2_up _ (by omega) hb' n1.nonneg.2 (by norm_num)))
        (g2.norm_le.trans (p2_up _ (by omega) g3 g2.nonneg.2 (by norm_num)))
      refine ⟨y, ?_, ?_, ?_⟩
      · rw [if_pos hP, g1, hy]
      · rw [if_pos hP, if_pos hP, if_pos hP]
        have := n1.add (g2.mono (show K ≤ K + n by omega) le_rfl) hye
        rw [add_comm (d _), add_comm (A _), add_comm (T _ + eta), ← add_assoc, ← add_assoc]
        exact this
      · rw [if_pos hP]
        have : T (J_min + n) + eta ≤ 2 ^ (73 : ℤ) := p2_add _ g3 eta_le (by norm_num) (by norm_num)
        push_cast
        rw [add_mul, one_mul]
        linarith
    · refine ⟨z, ?_, ?_, ?_⟩
      · rw [if_neg hP]
      · rw [if_neg hP, if_neg hP, if_neg hP, zero_add, zero_add, zero_add]
        exact n1.mono (by omega) le_rfl
      · rw [if_neg hP, zero_add]
        refine hb.trans (mul_le_mul_of_nonneg_right ?_ h73)
        push_cast; linarith

end S2wav.Single
