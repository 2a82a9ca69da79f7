import Verif.Props.Sphere

/-! # Size of the multiresolution maps (C96) -/

namespace S2wav
open Classical Sphere

variable {jm : JMax} {c : Cfg} {J : ℤ} {b : Backend} {f s : Px} {w : List Px}

theorem ceil_le_two_mul {x : ℝ} (h : 1 ≤ x) : (⌈x⌉ : ℝ) ≤ 2 * x := by
  have := Int.ceil_lt_add_one x; linarith

/-- partial sums of a geometric series -/
theorem geom_bound {q C : ℝ} (hq : 1 < q) (v : ℤ → ℝ) (h : ∀ j : ℤ, 1 ≤ j → v j ≤ C * q ^ (j + 1)) (hC : 0 ≤ C) (m : ℕ) :
    ∑ j ∈ Finset.Icc (1 : ℤ) m, v j ≤ C * (q / (q - 1)) * q ^ ((m : ℤ) + 1) := by
  have hq0 : 0 < q := by linarith
  have hq1 : 0 < q - 1 := by linarith
  induction m with
  | zero =>
    rw [Nat.cast_zero, Finset.Icc_eq_empty (by norm_num), Finset.sum_empty]
    positivity
  | succ m ih =>
    have e : Finset.Icc (1 : ℤ) ((m + 1 : ℕ) : ℤ) = insert ((m : ℤ) + 1) (Finset.Icc (1 : ℤ) m) := by
      ext j
      rw [Finset.mem_insert, Finset.mem_Icc, Finset.mem_Icc]
      push_cast; omega
    rw [e, Finset.sum_insert (by rw [Finset.mem_Icc]; omega)]
    have h1 := h ((m : ℤ) + 1) (by omega)
    push_cast
    have h2 : C * q ^ ((m : ℤ) + 1 + 1) + C * (q / (q - 1)) * q ^ ((m : ℤ) + 1) = C * (q / (q - 1)) * q ^ ((m : ℤ) + 1 + 1) := by
      rw [zpow_add_one₀ hq0.ne' ((m : ℤ) + 1)]
      field_simp
      ring
    linarith

/-- **C96** the squares of the band-limits of all scales add up to at most a constant times `L²`, whatever the number of scales;
the constant is smaller for integer `lam` -/
theorem C96_bandlimits {L N J_min : ℤ} {lam : ℝ} (hL : 1 ≤ L) (hlam : 1 < lam) (hJ : j_max L lam = .ok J) (h0 : 0 ≤ J_min) :
    ∑ j ∈ Finset.Icc J_min J, ((LN_j L j N lam true).1 : ℝ) ^ 2 ≤ (3 + 4 * (lam ^ 2 / (lam ^ 2 - 1))) * L ^ 2 ∧
    ((∃ n : ℤ, lam = n) → ∑ j ∈ Finset.Icc J_min J, ((LN_j L j N lam true).1 : ℝ) ^ 2 ≤ (3 + lam ^ 2 / (lam ^ 2 - 1)) * L ^ 2) := by
  have hLR : (1 : ℝ) ≤ L := by exact_mod_cast hL
  have hq : 1 < lam ^ 2 := by nlinarith
  have hq1 : 0 < lam ^ 2 - 1 := by linarith
  have hlam0 : 0 < lam := by linarith
  have hb : ∀ j, ((LN_j L j N lam true).1 : ℝ) ^ 2 ≤ (L : ℝ) ^ 2 := by
    intro j
    have h := LN_j_Lj_bounds hL hlam j N true
    have h1 : (0 : ℝ) ≤ ((LN_j L j N lam true).1 : ℝ) := by exact_mod_cast (by omega : 0 ≤ (LN_j L j N lam true).1)
    have h2 : ((LN_j L j N lam true).1 : ℝ) ≤ L := by exact_mod_cast h.2
    exact pow_le_pow_left₀ h1 h2 2
  have hv : ∀ j : ℤ, 1 ≤ j → (LN_j L j N lam true).1 ≤ ⌈lam ^ (j + 1)⌉ := by
    intro j hj
    rw [LN_j_Lj]
    unfold wav_j_bandlimit
    simp only [if_true, if_neg (show j ≠ 0 by omega)]
    exact min_le_left _ _
  have h1le : ∀ j : ℤ, 1 ≤ j → 1 ≤ lam ^ (j + 1) := fun j hj => one_le_zpow₀ hlam.le (by omega)
  have key : ∀ C : ℝ, 0 ≤ C → (∀ j : ℤ, 1 ≤ j → ((⌈lam ^ (j + 1)⌉ : ℤ) : ℝ) ^ 2 ≤ C * (lam ^ 2) ^ (j + 1)) →
      ∑ j ∈ Finset.Icc J_min J, ((LN_j L j N lam true).1 : ℝ) ^ 2 ≤ (3 + C * (lam ^ 2 / (lam ^ 2 - 1))) * L ^ 2 := by
    intro C hC hc
    have hbound : ∀ j : ℤ, 1 ≤ j → ((LN_j L j N lam true).1 : ℝ) ^ 2 ≤ C * (lam ^ 2) ^ (j + 1) := by
      intro j hj
      refine le_trans ?_ (hc j hj)
      have h := LN_j_Lj_bounds hL hlam j N true
      exact pow_le_pow_left₀ (by exact_mod_cast (by omega : 0 ≤ (LN_j L j N lam true).1)) (by exact_mod_cast hv j hj) 2
    have hmono : ∑ j ∈ Finset.Icc J_min J, ((LN_j L j N lam true).1 : ℝ) ^ 2 ≤ ∑ j ∈ Finset.Icc 0 J, ((LN_j L j N lam true).1 : ℝ) ^ 2 :=
      Finset.sum_le_sum_of_subset_of_nonneg (Finset.Icc_subset_Icc_left h0) fun _ _ _ => sq_nonneg _
    refine hmono.trans ?_
    have hpos : 0 ≤ C * (lam ^ 2 / (lam ^ 2 - 1)) * (L : ℝ) ^ 2 := by positivity
    have h3 : ∑ j ∈ ({0, J - 1, J} : Finset ℤ), ((LN_j L j N lam true).1 : ℝ) ^ 2 ≤ 3 * (L : ℝ) ^ 2 := by
      have hcard : (({0, J - 1, J} : Finset ℤ).card : ℝ) ≤ 3 := by exact_mod_cast Finset.card_le_three
      refine (Finset.sum_le_card_nsmul _ _ _ fun j _ => hb j).trans ?_
      rw [nsmul_eq_mul]
      exact mul_le_mul_of_nonneg_right hcard (sq_nonneg _)
    have hsub : Finset.Icc 0 J ⊆ ({0, J - 1, J} : Finset ℤ) ∪ Finset.Icc 1 ((J - 2).toNat : ℤ) := by
      intro j hj
      rw [Finset.mem_Icc] at hj
      rw [Finset.mem_union, Finset.mem_insert, Finset.mem_insert, Finset.mem_singleton, Finset.mem_Icc]
      omega
    have h4 : ∑ j ∈ Finset.Icc 0 J, ((LN_j L j N lam true).1 : ℝ) ^ 2 ≤
        ∑ j ∈ ({0, J - 1, J} : Finset ℤ), ((LN_j L j N lam true).1 : ℝ) ^ 2 +
        ∑ j ∈ Finset.Icc 1 ((J - 2).toNat : ℤ), ((LN_j L j N lam true).1 : ℝ) ^ 2 := by
      refine (Finset.sum_le_sum_of_subset_of_nonneg hsub fun _ _ _ => sq_nonneg _).trans ?_
      rw [← Finset.sum_union_inter]
      exact le_add_of_nonneg_right (Finset.sum_nonneg fun _ _ => sq_nonneg _)
    have h5 : ∑ j ∈ Finset.Icc 1 ((J - 2).toNat : ℤ), ((LN_j L j N lam true).1 : ℝ) ^ 2 ≤ C * (lam ^ 2 / (lam ^ 2 - 1)) * (L : ℝ) ^ 2 := by
      rcases le_or_gt J 2 with hJ2 | hJ2
      · rw [Finset.Icc_eq_empty (by omega), Finset.sum_empty]; exact hpos
      · refine (geom_bound hq _ hbound hC _).trans ?_
        have e : ((J - 2).toNat : ℤ) + 1 = J - 1 := by omega
        rw [e]
        refine mul_le_mul_of_nonneg_left ?_ (by positivity)
        have ht : lam ^ (J - 1) < L := by
          by_contra hcon
          have := (j_max_spec hL hlam hJ).2.2 (J - 1) (not_lt.1 hcon)
          omega
        rw [← zpow_natCast, ← zpow_mul, mul_comm, zpow_mul, zpow_natCast]
        exact pow_le_pow_left₀ (by positivity) ht.le 2
    linarith
  constructor
  · refine key 4 (by norm_num) fun j hj => ?_
    have h := ceil_le_two_mul (h1le j hj)
    have hc0 : (0 : ℝ) ≤ ((⌈lam ^ (j + 1)⌉ : ℤ) : ℝ) := by
      exact_mod_cast Int.ceil_nonneg (by positivity)
    have e : (lam ^ 2 : ℝ) ^ (j + 1) = (lam ^ (j + 1)) ^ 2 := by
      rw [← zpow_natCast, ← zpow_mul, mul_comm, zpow_mul, zpow_natCast]
    rw [e]
    nlinarith
  · rintro ⟨n, rfl⟩
    have := key 1 (by norm_num) fun j hj => ?_
    · rwa [one_mul] at this
    · obtain ⟨k, hk⟩ : ∃ k : ℕ, j + 1 = k := ⟨(j + 1).toNat, by omega⟩
      have e : (n : ℝ) ^ (j + 1) = ((n ^ k : ℤ) : ℝ) := by rw [hk, zpow_natCast]; push_cast; rfl
      rw [e, Int.ceil_intCast, ← e, one_mul, ← zpow_natCast, ← zpow_mul, ← zpow_natCast, ← zpow_mul, mul_comm]

/-- the number of pixels of an image -/
def Px.size (p : Px) : ℤ := p.shape.prod

theorem sum_listGet {w : List Px} {a J : ℤ} (hlen : (w.length : ℤ) = J + 1 - a) {v : ℤ → ℤ}
    (h : ∀ j, a ≤ j → j ≤ J → ∃ p, listGet w (j - a) = .ok p ∧ p.size = v j) : (w.map Px.size).sum = ∑ j ∈ Finset.Icc a J, v j := by
  induction w generalizing a with
  | nil =>
    rw [Finset.Icc_eq_empty (by simp at hlen; omega)]; rfl
  | cons p w ih =>
    have hl : (w.length : ℤ) = J + 1 - (a + 1) := by push_cast [List.length_cons] at hlen; omega
    have e : Finset.Icc a J = insert a (Finset.Icc (a + 1) J) := by
      ext j
      rw [Finset.mem_insert, Finset.mem_Icc, Finset.mem_Icc]; omega
    rw [List.map_cons, List.sum_cons, e, Finset.sum_insert (by rw [Finset.mem_Icc]; omega), ih hl fun j h0 h1 => ?_]
    · obtain ⟨q, h1, h2⟩ := h a le_rfl (by omega)
      unfold listGet at h1
      simp at h1
      subst h1
      rw [h2]
    · obtain ⟨q, h2, h3⟩ := h j (by omega) h1
      refine ⟨q, ?_, h3⟩
      unfold listGet at h2 ⊢
      rw [if_pos (by omega)] at h2 ⊢
      rw [show (j - a).toNat = (j - (a + 1)).toNat + 1 by omega, List.getElem?_cons_succ] at h2
      exact h2

theorem gridOf_mw {L : ℤ} : gridOf "mw" L = gridIx 0 L := by
  unfold gridOf; rw [mw_lower]; rfl

/-- **C96** the number of pixels of the wavelet maps on the `mw` grid: with multiresolution at most a constant times `N L²`,
whatever the number of scales; at full resolution it grows with the number of scales -/
theorem C96_pixels (hb : IsSphere b) (hv : c.Valid j_max J) (hmw : c.sampling = "mw") (hr : c.reality = true → c.spin = 0)
    {a : ℤ → ℤ → ℂ} (ha : c.reality = true → HermF a) {g : Grid} (hg : gridOf c.sampling c.L = .ok g)
    (hf : Samples g (series (spinOf b c) c.L a) f) (h : b.analysis j_max c f = .ok (w, s)) :
    (b.mr = true → ((w.map Px.size).sum : ℝ) ≤ (2 * c.N - 1) * (6 + 8 * (c.lam ^ 2 / (c.lam ^ 2 - 1))) * c.L ^ 2) ∧
    (b.mr = false → (w.map Px.size).sum = (J + 1 - c.J_min) * ((2 * c.N - 1) * (c.L * (2 * c.L - 1)))) := by
  have hs : SamplingOk b c := Or.inl (Or.inl (by rw [hmw]; exact mw_lower))
  obtain ⟨psi, phi, hflt⟩ := filters_exist hv b
  obtain ⟨w', s', h1, h2, h3, -⟩ := C82_maps hb hv hs hflt (fun h => ⟨hr h, ha h⟩) hg hf
  rw [h] at h1
  cases h1
  have hsum : (w.map Px.size).sum = ∑ j ∈ Finset.Icc c.J_min J, (2 * c.Nj b.mr j - 1) * (c.Lj b.mr j * (2 * c.Lj b.mr j - 1)) := by
    refine sum_listGet h2 fun j h4 h5 => ?_
    obtain ⟨p, gj, a1, a2, a3⟩ := h3 j h4 h5
    refine ⟨p, a1, ?_⟩
    rw [hmw, gridOf_mw] at a2
    cases a2
    unfold Px.size
    rw [a3.1]
    simp
  rw [hsum]
  constructor
  · intro hmr
    rw [hmr]
    push_cast
    have hk := (C96_bandlimits (N := c.N) hv.top.hL hv.top.hlam hv.top.hJ hv.h0).1
    have hN : (1 : ℝ) ≤ c.N := by exact_mod_cast hv.hN
    calc ∑ j ∈ Finset.Icc c.J_min J, (2 * (c.Nj true j : ℝ) - 1) * ((c.Lj true j : ℝ) * (2 * c.Lj true j - 1))
        ≤ ∑ j ∈ Finset.Icc c.J_min J, (2 * (c.N : ℝ) - 1) * 2 * ((LN_j c.L j c.N c.lam true).1 : ℝ) ^ 2 := by
          refine Finset.sum_le_sum fun j _ => ?_
          obtain ⟨p1, p2, -, -⟩ := hv.core.Lj_pos true j
          have p3 := (LN_j_Nj_bounds hv.top.hL hv.top.hlam hv.hN j true).2.1
          change c.Nj true j ≤ c.N at p3
          have q1 : (1 : ℝ) ≤ c.Lj true j := by exact_mod_cast p1
          have q2 : (1 : ℝ) ≤ c.Nj true j := by exact_mod_cast p2
          have q3 : (c.Nj true j : ℝ) ≤ c.N := by exact_mod_cast p3
          change _ ≤ (2 * (c.N : ℝ) - 1) * 2 * (c.Lj true j : ℝ) ^ 2
          have : (2 * (c.Nj true j : ℝ) - 1) * ((c.Lj true j : ℝ) * (2 * c.Lj true j - 1)) ≤
              (2 * (c.N : ℝ) - 1) * ((c.Lj true j : ℝ) * (2 * c.Lj true j - 1)) :=
            mul_le_mul_of_nonneg_right (by linarith) (by nlinarith)
          nlinarith
      _ ≤ _ := by
          rw [← Finset.mul_sum]
          have := mul_le_mul_of_nonneg_left hk (show 0 ≤ (2 * (c.N : ℝ) - 1) * 2 by linarith)
          linarith
  · intro hmr
    have e : ∀ j, c.Nj b.mr j = c.N ∧ c.Lj b.mr j = c.L := by
      intro j
      rw [hmr]
      unfold Cfg.Nj Cfg.Lj LN_j wav_j_bandlimit
      simp
    rw [Finset.sum_congr rfl fun j _ => by rw [(e j).1, (e j).2], Finset.sum_const, Int.card_Icc, nsmul_eq_mul]
    have := hv.h1
    rw [Int.toNat_of_nonneg (by omega)]

/-- the maps of the example at full resolution: 3 scales, 3 orientations, 3 x 5 angles -/
example (hb : IsSphere b) (hmr : b.mr = false) : ∃ w s, b.analysis j_max (exCfg false 0) exImg = .ok (w, s) ∧ (w.map Px.size).sum = 135 := by
  obtain ⟨g, hg, hf⟩ := exGrid
  have e : spinOf b (exCfg false 0) = 0 := spinOf_zero rfl
  obtain ⟨psi, phi, hflt⟩ := filters_exist (exCfg_valid false 0) b
  obtain ⟨w, s, h1, -⟩ := C82_maps (a := exSig) hb (exCfg_valid false 0) (exSphere_ok b false) hflt (by simp [exCfg]) hg (by rw [e]; exact hf)
  refine ⟨w, s, h1, ?_⟩
  rw [(C96_pixels (a := exSig) hb (exCfg_valid false 0) rfl (by simp [exCfg]) (by simp [exCfg]) hg (by rw [e]; exact hf) h1).2 hmr]
  norm_num [exCfg]

/-- `lam = 2`: at most `13/3 L²` for every `L` -/
example {L J : ℤ} (hL : 1 ≤ L) (hJ : j_max L 2 = .ok J) : ∑ j ∈ Finset.Icc 0 J, ((LN_j L j 1 2 true).1 : ℝ) ^ 2 ≤ 13 / 3 * L ^ 2 := by
  have := (C96_bandlimits (N := 1) (J_min := 0) hL (by norm_num) hJ le_rfl).2 ⟨2, by norm_num⟩
  norm_num at this ⊢
  exact this

end S2wav
