import Verif.Lemmas.HarmErr

/-! # The harmonic-space steps in double precision, entry by entry -/

namespace S2wav
open Classical

/-! ### bounds by powers of two -/

theorem p2_mono {a b : ℤ} (h : a ≤ b) : (2 : ℝ) ^ a ≤ 2 ^ b := zpow_le_zpow_right₀ (by norm_num) h

theorem p2_mul {x y : ℝ} {a b : ℤ} (c : ℤ) (hx : x ≤ 2 ^ a) (hy : y ≤ 2 ^ b) (h0 : 0 ≤ y) (h : a + b ≤ c) : x * y ≤ (2 : ℝ) ^ c := by
  refine le_trans (mul_le_mul hx hy h0 (by positivity)) ?_
  rw [← zpow_add₀ (by norm_num)]
  exact p2_mono h

theorem p2_add {x y : ℝ} {a b : ℤ} (c : ℤ) (hx : x ≤ 2 ^ a) (hy : y ≤ 2 ^ b) (ha : a + 1 ≤ c) (hb : b + 1 ≤ c) : x + y ≤ (2 : ℝ) ^ c := by
  have h1 := hx.trans (p2_mono (show a ≤ c - 1 by omega))
  have h2 := hy.trans (p2_mono (show b ≤ c - 1 by omega))
  have h3 : (2 : ℝ) ^ (c - 1) + 2 ^ (c - 1) = 2 ^ c := by
    rw [← two_mul, show c = 1 + (c - 1) by ring, zpow_add₀ (by norm_num), zpow_one, show 1 + (c - 1) - 1 = c - 1 by ring]
  linarith

theorem p2_up {x : ℝ} {a : ℤ} {k : ℕ} (c : ℤ) (hk : k ≤ 2 ^ 21) (hx : x ≤ 2 ^ a) (h0 : 0 ≤ x) (h : a + 1 ≤ c) :
    (1 + uu) ^ k * x ≤ (2 : ℝ) ^ c :=
  p2_mul c ((up_le_two hk).trans (by norm_num : (2 : ℝ) ≤ 2 ^ (1 : ℤ))) hx h0 (by omega)

theorem eta_le : eta ≤ (2 : ℝ) ^ (0 : ℤ) := p2_mono (by norm_num)

/-! ### arrays of doubles -/

theorem ofC_zero : C64.ofC 0 = 0 := rfl

theorem map_ofC3 (a : Arr3 ℂ) (k i j : ℤ) : (a.map C64.ofC).v k i j = C64.ofC (a.v k i j) := by
  by_cases h : 0 ≤ k ∧ k < a.d ∧ 0 ≤ i ∧ i < a.r ∧ 0 ≤ j ∧ j < a.c
  · exact Arr3.of_v _ _ _ _ _ _ _ h
  · rw [a.junk _ _ _ h, ofC_zero]; exact Arr3.of_out _ _ _ _ _ _ _ h

theorem map_ofC2 (a : Arr2 ℂ) (i j : ℤ) : (a.map C64.ofC).v i j = C64.ofC (a.v i j) := by
  by_cases h : 0 ≤ i ∧ i < a.r ∧ 0 ≤ j ∧ j < a.c
  · exact Arr2.of_v _ _ _ _ _ h
  · rw [a.junk _ _ h, ofC_zero]; exact Arr2.of_out _ _ _ _ _ h

theorem map_fin1 (a : Arr1 ℝ) (i : ℤ) : (a.map F64.fin).v i = F64.fin (a.v i) := by
  by_cases h : 0 ≤ i ∧ i < a.n
  · exact Arr1.of_v _ _ _ h
  · rw [a.junk _ h]; exact Arr1.of_out _ _ _ h

theorem map_ofC_of2 {r c : ℤ} {f : ℤ → ℤ → ℂ} : (Arr2.of r c f).map C64.ofC = Arr2.of r c fun i j => C64.ofC (f i j) :=
  Arr2.of_congr fun i j h0 h1 h2 h3 => by rw [Arr2.of_v r c f i j ⟨h0, h1, h2, h3⟩]

theorem map_ofC_of3 {d r c : ℤ} {f : ℤ → ℤ → ℤ → ℂ} : (Arr3.of d r c f).map C64.ofC = Arr3.of d r c fun k i j => C64.ofC (f k i j) :=
  Arr3.of_congr fun k i j h0 h1 h2 h3 h4 h5 => by rw [Arr3.of_v d r c f k i j ⟨h0, h1, h2, h3, h4, h5⟩]

theorem sum_pyRange {M : Type} [AddCommMonoid M] (f : ℤ → M) (a b : ℤ) :
    ((pyRange a b).map f).sum = ∑ i ∈ Finset.Ico a b, f i := by
  by_cases h : a ≤ b
  · obtain ⟨n, rfl⟩ : ∃ n : ℕ, b = a + n := ⟨(b - a).toNat, by omega⟩
    induction n with
    | zero => simp [pyRange_empty]
    | succ n ih =>
      have e : a + ((n + 1 : ℕ) : ℤ) = a + n + 1 := by push_cast; ring
      have e2 : Finset.Ico a (a + n + 1) = insert (a + n : ℤ) (Finset.Ico a (a + n)) := by
        ext x; simp only [Finset.mem_Ico, Finset.mem_insert]; omega
      rw [e, pyRange_snoc (by omega), List.map_append, List.sum_append, ih (by omega), e2,
        Finset.sum_insert (by simp), add_comm]
      simp
  · rw [pyRange_empty (by omega), Finset.Ico_eq_empty (by omega)]; simp

/-! ### single entries -/

variable {O : Ops C64 F64}

/-- the factor of the analysis -/
noncomputable def k8 (l : ℤ) : ℝ := 8 * Real.pi ^ 2 / (2 * l + 1)

/-- the factor of the scaling function -/
noncomputable def k4 (l : ℤ) : ℝ := Real.sqrt (4 * Real.pi / (2 * l + 1))

theorem k8_bounds {l : ℤ} (hl : 0 ≤ l) : 0 < k8 l ∧ k8 l ≤ 2 ^ (7 : ℤ) := by
  have hl' : (0 : ℝ) ≤ l := by exact_mod_cast hl
  have h1 := Real.pi_pos
  have h2 := Real.pi_lt_d2
  unfold k8
  refine ⟨by positivity, ?_⟩
  rw [div_le_iff₀ (by positivity)]
  norm_num
  nlinarith

theorem k4_bounds {l : ℤ} (hl : 0 ≤ l) : 0 < k4 l ∧ k4 l ≤ 2 ^ (2 : ℤ) := by
  have hl' : (0 : ℝ) ≤ l := by exact_mod_cast hl
  have h1 := Real.pi_pos
  have h2 := Real.pi_lt_d2
  unfold k4
  refine ⟨Real.sqrt_pos.2 (by positivity), ?_⟩
  rw [Real.sqrt_le_left (by positivity), div_le_iff₀ (by positivity)]
  norm_num
  nlinarith

theorem k4_sq {l : ℤ} (hl : 0 ≤ l) : k4 l ^ 2 = 4 * Real.pi / (2 * l + 1) := by
  have hl' : (0 : ℝ) ≤ l := by exact_mod_cast hl
  have h1 := Real.pi_pos
  exact Real.sq_sqrt (by positivity)

/-- one Wigner coefficient -/
theorem ana_entry (hO : O.Good) {l : ℤ} (hl0 : 0 ≤ l) (hl1 : l < 2 ^ 52) {f p : ℂ} (hf : ‖f‖ ≤ 2 ^ (300 : ℤ)) (hp : ‖p‖ ≤ 2 ^ (30 : ℤ)) :
    ∃ z, O.add 0 (O.mul (.ofC f) (O.mul (O.conj (.ofC p)) (O.ofReal (O.c8 l)))) = .ofC z ∧
      Nr 5 (‖f‖ * (‖p‖ * k8 l)) (‖f‖ * (‖p‖ * k8 l + eta) + eta + eta) z (f * ((starRingEnd ℂ) p * (k8 l : ℂ))) := by
  obtain ⟨kp, kb⟩ := k8_bounds hl0
  have he := eta_pos
  obtain ⟨c, hc, hce⟩ := hO.c8 l hl0 hl1
  have n1 : Nr 2 (k8 l) (k8 l) (c : ℂ) (k8 l : ℂ) := Nr.const 2 kp.le (by push_cast; exact hce)
  have n2 : Nr 0 ‖p‖ ‖p‖ ((starRingEnd ℂ) p) ((starRingEnd ℂ) p) := Nr.refl (by simp)
  obtain ⟨a, ha, hae⟩ := hO.mul ((starRingEnd ℂ) p) c (by rw [RCLike.norm_conj]; exact hp.trans (p2_mono (by norm_num)))
    (n1.norm_le.trans (p2_up _ (by norm_num) kb kp.le (by norm_num)))
  have n3 := n2.mul n1 hae
  have hT : ‖p‖ * k8 l + eta ≤ 2 ^ (38 : ℤ) :=
    p2_add (a := 37) _ (p2_mul _ hp kb kp.le (by norm_num)) eta_le (by norm_num) (by norm_num)
  have hT0 : 0 ≤ ‖p‖ * k8 l + eta := by positivity
  obtain ⟨b, hb, hbe⟩ := hO.mul f a (hf.trans (p2_mono (by norm_num)))
    (n3.norm_le.trans (p2_up _ (by norm_num) hT hT0 (by norm_num)))
  have n4 := (Nr.refl (le_refl ‖f‖)).mul n3 hbe
  have hT' : ‖f‖ * (‖p‖ * k8 l + eta) + eta ≤ 2 ^ (339 : ℤ) :=
    p2_add (a := 338) _ (p2_mul _ hf hT hT0 (by norm_num)) eta_le (by norm_num) (by norm_num)
  obtain ⟨z, hz, hze⟩ := hO.add 0 b (by rw [norm_zero]; positivity)
    (n4.norm_le.trans (p2_up _ (by norm_num) hT' (by positivity) (by norm_num)))
  have n5 := ((Nr.refl (x := 0) (A := 0) (by simp)).mono (Nat.zero_le _) le_rfl).add n4 hze
  refine ⟨z, ?_, ?_⟩
  · rw [hc, hO.ofReal, hO.conj, ha, hb, ← ofC_zero, hz]
  · simp only [zero_add] at n5
    exact n5

/-- the normalised scaling filter -/
theorem phi_entry (hO : O.Good) {l : ℤ} (hl0 : 0 ≤ l) (hl1 : l < 2 ^ 52) {q : ℝ} (hq : |q| ≤ 2 ^ (30 : ℤ)) :
    ∃ z, O.ofReal (O.rmul (.fin q) (O.c4 l)) = .ofC z ∧ Nr 2 (|q| * k4 l) (|q| * k4 l + eta) z ((q * k4 l : ℝ) : ℂ) := by
  obtain ⟨kp, kb⟩ := k4_bounds hl0
  have he := eta_pos
  obtain ⟨c, hc, hce⟩ := hO.c4 l hl0 hl1
  have n1 : Nr 1 (k4 l) (k4 l) (c : ℂ) (k4 l : ℂ) := Nr.const 1 kp.le (by push_cast; rw [one_mul]; exact hce)
  have hcn := n1.norm_le.trans (p2_up 400 (by norm_num) kb kp.le (by norm_num))
  rw [Complex.norm_real, Real.norm_eq_abs] at hcn
  obtain ⟨a, ha, hae⟩ := hO.rmul q c (hq.trans (p2_mono (by norm_num))) hcn
  have n3 := (Nr.refl (x := (q : ℂ)) (A := |q|) (by simp)).mul n1 (z := (a : ℂ)) (by
    rw [← Complex.ofReal_mul, ← Complex.ofReal_sub, Complex.norm_real, Complex.norm_real, Complex.norm_real]; exact hae)
  refine ⟨a, by rw [hc, ha, hO.ofReal], ?_⟩
  push_cast
  exact n3

/-- one scaling coefficient; also the scaling part of the synthesis -/
theorem scal_entry (hO : O.Good) {l : ℤ} (hl0 : 0 ≤ l) (hl1 : l < 2 ^ 52) {q : ℝ} (hq : |q| ≤ 2 ^ (30 : ℤ)) {k : ℕ} (hk : k ≤ 2 ^ 20) {A T : ℝ} {f' f : ℂ}
    (h : Nr k A T f' f) (hT : T ≤ 2 ^ (390 : ℤ)) :
    ∃ z, O.mul (.ofC f') (O.ofReal (O.rmul (.fin q) (O.c4 l))) = .ofC z ∧
      Nr (k + 3) (A * (|q| * k4 l)) (T * (|q| * k4 l + eta) + eta) z (f * ((q * k4 l : ℝ) : ℂ)) ∧
      T * (|q| * k4 l + eta) + eta ≤ 2 ^ (430 : ℤ) := by
  obtain ⟨kp, kb⟩ := k4_bounds hl0
  have he := eta_pos
  obtain ⟨a, ha, n⟩ := phi_entry hO hl0 hl1 hq
  have hq1 : |q| * k4 l + eta ≤ 2 ^ (33 : ℤ) :=
    p2_add (a := 32) _ (p2_mul _ hq kb kp.le (by norm_num)) eta_le (by norm_num) (by norm_num)
  obtain ⟨z, hz, hze⟩ := hO.mul f' a (h.norm_le.trans (p2_up _ (by omega) hT h.nonneg.2 (by norm_num)))
    (n.norm_le.trans (p2_up _ (by norm_num) hq1 (by positivity) (by norm_num)))
  refine ⟨z, by rw [ha, hz], ?_, ?_⟩
  · have := h.mul n hze
    rwa [show k + 2 + 1 = k + 3 by ring] at this
  · exact p2_add (a := 423) _ (p2_mul _ hT hq1 (by positivity) (by norm_num)) eta_le (by norm_num) (by norm_num)

/-- the sum over directions -/
theorem dot_entry (hO : O.Good) {L Lj Nj j l m : ℤ} (hN0 : 0 ≤ Nj) (hN : Nj ≤ 2 ^ 20) {psi t t' : Arr3 ℂ}
    (hp : ∀ k, ‖psi.v j l k‖ ≤ 2 ^ (30 : ℤ)) {kt : ℕ} (hkt : kt ≤ 2 ^ 20) {A T : ℤ → ℝ}
    (h : ∀ k, 0 ≤ k → k < Nj → Nr kt (A k) (T k) (t'.v (2 * k) l (m - (L - Lj))) (t.v (2 * k) l (m - (L - Lj))))
    (hT : ∀ k, 0 ≤ k → k < Nj → T k ≤ 2 ^ (390 : ℤ)) :
    ∃ z, dotO O L Lj Nj (psi.map C64.ofC) j (t'.map C64.ofC) l m = .ofC z ∧
      Nr (kt + Nj.toNat + 1) (∑ k ∈ Finset.Ico 0 Nj, ‖psi.v j l (L - Nj + 2 * k)‖ * A k)
        (∑ k ∈ Finset.Ico 0 Nj, ‖psi.v j l (L - Nj + 2 * k)‖ * T k + 2 * Nj * eta) z
        (∑ k ∈ Finset.Ico 0 Nj, psi.v j l (L - Nj + 2 * k) * t.v (2 * k) l (m - (L - Lj))) := by
  have hlen : (pyRange 0 Nj).length = Nj.toNat := by rw [length_pyRange]; congr 1; omega
  have hlenR : ((pyRange 0 Nj).length : ℝ) = Nj := by
    rw [hlen]
    have : ((Nj.toNat : ℤ) : ℝ) = Nj := by rw [Int.toNat_of_nonneg hN0]
    exact_mod_cast this
  obtain ⟨z, hz, hze⟩ := hO.dot ((pyRange 0 Nj).map fun k => (psi.v j l (L - Nj + 2 * k), t'.v (2 * k) l (m - (L - Lj))))
    (by rw [List.length_map, hlen]; omega) (by
      intro p hpm
      rw [List.mem_map] at hpm
      obtain ⟨k, hk, rfl⟩ := hpm
      rw [mem_pyRange] at hk
      exact ⟨(hp _).trans (p2_mono (by norm_num)), (h k hk.1 hk.2).norm_le.trans
        (p2_up _ (by omega) (hT k hk.1 hk.2) (h k hk.1 hk.2).nonneg.2 (by norm_num))⟩)
  simp only [List.map_map, Function.comp_def, List.length_map] at hz hze
  refine ⟨z, ?_, ?_⟩
  · unfold dotO
    rw [← hz]
    congr 1
    refine map_range_congr fun k _ _ => ?_
    rw [map_ofC3, map_ofC3]
  · have := Nr.dot (pyRange 0 Nj) (k := 0) (k' := kt) (a := fun k => psi.v j l (L - Nj + 2 * k))
      (b := fun k => t.v (2 * k) l (m - (L - Lj))) (a' := fun k => psi.v j l (L - Nj + 2 * k))
      (b' := fun k => t'.v (2 * k) l (m - (L - Lj))) (A := fun k => ‖psi.v j l (L - Nj + 2 * k)‖)
      (T := fun k => ‖psi.v j l (L - Nj + 2 * k)‖) (B := A) (S := T)
      (fun k _ => Nr.refl le_rfl) (fun k hk => by rw [mem_pyRange] at hk; exact h k hk.1 hk.2) hze
    rw [sum_pyRange, sum_pyRange, sum_pyRange, hlenR, hlen, zero_add] at this
    exact this.mono (by omega) le_rfl

/-- adding up the scales -/
theorem loop_entry (hO : O.Good) {J_min : ℤ} {P : ℤ → Prop} {D : ℤ → C64} {d d' : ℤ → ℂ} {A T : ℤ → ℝ} {K : ℕ} (hK : K ≤ 2 ^ 20 + 2 ^ 19) (n : ℕ) (hn : n ≤ 2 ^ 18)
    (h : ∀ j, J_min ≤ j → j < J_min + n → P j → D j = .ofC (d' j) ∧ Nr K (A j) (T j) (d' j) (d j) ∧ T j ≤ 2 ^ (500 : ℤ)) :
    ∃ z, (pyRange J_min (J_min + n)).foldl (fun g j => if P j then O.add g (D j) else g) 0 = .ofC z ∧
      Nr (K + n) (∑ j ∈ Finset.Ico J_min (J_min + n), if P j then A j else 0)
        (∑ j ∈ Finset.Ico J_min (J_min + n), if P j then T j + eta else 0) z
        (∑ j ∈ Finset.Ico J_min (J_min + n), if P j then d j else 0) ∧
      (∑ j ∈ Finset.Ico J_min (J_min + n), if P j then T j + eta else 0) ≤ n * 2 ^ (501 : ℤ) := by
  induction n with
  | zero =>
    refine ⟨0, by simp [pyRange_empty]; rfl, ?_, by simp⟩
    simp only [Nat.cast_zero, add_zero, Finset.Ico_self, Finset.sum_empty]
    exact (Nr.refl (x := 0) (A := 0) (by simp)).mono (Nat.zero_le _) le_rfl
  | succ n ih =>
    obtain ⟨z, hz, n1, hb⟩ := ih (by omega) fun j h0 h1 => h j h0 (by push_cast; omega)
    have e : J_min + ((n + 1 : ℕ) : ℤ) = J_min + n + 1 := by push_cast; ring
    have e2 : Finset.Ico J_min (J_min + n + 1) = insert (J_min + n : ℤ) (Finset.Ico J_min (J_min + n)) := by
      ext x; simp only [Finset.mem_Ico, Finset.mem_insert]; omega
    have hni : (J_min + n : ℤ) ∉ Finset.Ico J_min (J_min + n) := by simp
    rw [e, pyRange_snoc (by omega), List.foldl_append, hz, List.foldl_cons, List.foldl_nil, e2, Finset.sum_insert hni,
      Finset.sum_insert hni, Finset.sum_insert hni]
    have h501 : (0 : ℝ) ≤ 2 ^ (501 : ℤ) := by positivity
    by_cases hP : P (J_min + n)
    · obtain ⟨g1, g2, g3⟩ := h (J_min + n) (by omega) (by push_cast; omega) hP
      have hnb : (n : ℝ) ≤ 2 ^ (18 : ℤ) := by
        have : (n : ℝ) ≤ ((2 ^ 18 : ℕ) : ℝ) := by exact_mod_cast (by omega : n ≤ 2 ^ 18)
        refine this.trans (le_of_eq ?_); norm_num
      have hb' : (∑ j ∈ Finset.Ico J_min (J_min + n), if P j then T j + eta else 0) ≤ 2 ^ (519 : ℤ) :=
        hb.trans (p2_mul _ hnb le_rfl h501 (by norm_num))
      obtain ⟨y, hy, hye⟩ := hO.add z (d' (J_min + n)) (n1.norm_le.trans (p2_up _ (by omega) hb' n1.nonneg.2 (by norm_num)))
        (g2.norm_le.trans (p2_up _ (by omega) g3 g2.nonneg.2 (by norm_num)))
      refine ⟨y, ?_, ?_, ?_⟩
      · rw [if_pos hP, g1, hy]
      · rw [if_pos hP, if_pos hP, if_pos hP]
        have := n1.add (g2.mono (show K ≤ K + n by omega) le_rfl) hye
        rw [add_comm (d _), add_comm (A _), add_comm (T _ + eta), ← add_assoc, ← add_assoc]
        exact this
      · rw [if_pos hP]
        have : T (J_min + n) + eta ≤ 2 ^ (501 : ℤ) := p2_add _ g3 eta_le (by norm_num) (by norm_num)
        push_cast
        rw [add_mul, one_mul]
        linarith
    · refine ⟨z, ?_, ?_, ?_⟩
      · rw [if_neg hP]
      · rw [if_neg hP, if_neg hP, if_neg hP, zero_add, zero_add, zero_add]
        exact n1.mono (by omega) le_rfl
      · rw [if_neg hP, zero_add]
        refine hb.trans (mul_le_mul_of_nonneg_right ?_ h501)
        push_cast; linarith

end S2wav
