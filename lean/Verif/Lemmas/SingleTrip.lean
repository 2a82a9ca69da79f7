import Verif.Lemmas.SingleSyn
import Verif.Props.Filters

/-! # The harmonic round trip in single precision -/

namespace S2wav.Single
open Classical

variable {O : Ops C64 F64} {L N J J_min : ℤ} {lam : ℝ} {mr : Bool} {psi : Arr3 ℂ} {phi : Arr1 ℝ} {flm : Arr2 ℂ}

theorem k8_lo {l : ℤ} (hl0 : 0 ≤ l) (hl1 : l < 2 ^ 23) : 1 / 2 ^ 18 ≤ k8 l := by
  have h3 := Real.pi_gt_three
  have a : (0 : ℝ) ≤ l := by exact_mod_cast hl0
  have b : (l : ℝ) ≤ 2 ^ 23 := by exact_mod_cast hl1.le
  unfold k8
  rw [div_le_div_iff₀ (by norm_num) (by linarith)]
  norm_num at *
  nlinarith

theorem k4_lo {l : ℤ} (hl0 : 0 ≤ l) (hl1 : l < 2 ^ 23) : 1 / 2 ^ 21 ≤ k4 l ^ 2 := by
  have h3 := Real.pi_gt_three
  have a : (0 : ℝ) ≤ l := by exact_mod_cast hl0
  have b : (l : ℝ) ≤ 2 ^ 23 := by exact_mod_cast hl1.le
  rw [k4_sq hl0, div_le_div_iff₀ (by norm_num) (by linarith)]
  norm_num at *
  nlinarith

/-- filters satisfying the frame bound are not large -/
theorem frame_psi (hc : psi.c = 2 * L - 1) {j l : ℤ} (hl0 : 0 ≤ l) (hl1 : l < 2 ^ 23) (hF : frameSum J_min J L psi phi l ≤ 2) (h0 : J_min ≤ j) (h1 : j ≤ J) (k : ℤ) :
    ‖psi.v j l k‖ ≤ 2 ^ (12 : ℤ) := by
  by_cases hr : 0 ≤ k ∧ k < 2 * L - 1
  · have hk := k8_lo hl0 hl1
    have hk0 := (k8_bounds hl0).1
    rw [frameSum_k l hl0] at hF
    have a : ‖psi.v j l k‖ ^ 2 ≤ ∑ k ∈ Finset.Ico 0 (2 * L - 1), ‖psi.v j l k‖ ^ 2 :=
      Finset.single_le_sum (f := fun k => ‖psi.v j l k‖ ^ 2) (fun _ _ => by positivity) (Finset.mem_Ico.2 hr)
    have b : ∑ k ∈ Finset.Ico 0 (2 * L - 1), ‖psi.v j l k‖ ^ 2 ≤ ∑ j ∈ Finset.Ico J_min (J + 1), ∑ k ∈ Finset.Ico 0 (2 * L - 1), ‖psi.v j l k‖ ^ 2 :=
      Finset.single_le_sum (f := fun j => ∑ k ∈ Finset.Ico 0 (2 * L - 1), ‖psi.v j l k‖ ^ 2)
        (fun _ _ => Finset.sum_nonneg fun _ _ => by positivity) (Finset.mem_Ico.2 ⟨h0, by omega⟩)
    have c : k8 l * ‖psi.v j l k‖ ^ 2 ≤ 2 := by
      have := mul_le_mul_of_nonneg_left (a.trans b) hk0.le
      have : 0 ≤ k4 l ^ 2 * phi.v l ^ 2 := by positivity
      linarith
    have d : 1 / 2 ^ 18 * ‖psi.v j l k‖ ^ 2 ≤ 2 := (mul_le_mul_of_nonneg_right hk (by positivity)).trans c
    refine abs_le_of_sq_le_sq' ?_ (by positivity) |>.2
    norm_num at *
    linarith
  · rw [psi.junk _ _ _ (by omega), norm_zero]; positivity

theorem frame_phi {l : ℤ} (hl0 : 0 ≤ l) (hl1 : l < 2 ^ 23) (hF : frameSum J_min J L psi phi l ≤ 2) : |phi.v l| ≤ 2 ^ (12 : ℤ) := by
  have hk := k4_lo hl0 hl1
  have hk0 := (k8_bounds hl0).1
  rw [frameSum_k l hl0] at hF
  have a : 0 ≤ k8 l * ∑ j ∈ Finset.Ico J_min (J + 1), ∑ k ∈ Finset.Ico 0 (2 * L - 1), ‖psi.v j l k‖ ^ 2 :=
    mul_nonneg hk0.le (Finset.sum_nonneg fun _ _ => Finset.sum_nonneg fun _ _ => by positivity)
  have d : 1 / 2 ^ 21 * phi.v l ^ 2 ≤ 2 := (mul_le_mul_of_nonneg_right hk (by positivity)).trans (by linarith)
  refine abs_le_of_sq_le_sq' ?_ (by positivity) |>.2
  rw [sq_abs]
  norm_num at *
  linarith

theorem num_tiny : (2 : ℝ) ^ (40 : ℤ) * eta ≤ 2 ^ (-80 : ℤ) := by
  unfold eta
  rw [← zpow_add₀ (by norm_num)]
  exact p2_mono (by norm_num)

/-- analysis followed by synthesis, both computed, compared with the frame sum -/
theorem trip_entry (hO : Good O) (hL1 : 1 ≤ L) (hL : L ≤ 2 ^ 23) (hlam : 1 < lam) (hN1 : 1 ≤ N) (hNL : N ≤ L) (hN : N ≤ 2 ^ 10) (h0 : 0 ≤ J_min) (h1 : J_min ≤ J + 1) (hJ : J < 2 ^ 10)
    (hc : psi.c = 2 * L - 1) (hT : FltTrunc L N J_min lam mr psi phi) (hfl : Tri2 L flm)
    (hf : ∀ l m, ‖flm.v l m‖ ≤ 2 ^ (20 : ℤ)) (hF : ∀ l, 0 ≤ l → l < L → frameSum J_min J L psi phi l ≤ 2) :
    ∃ (t : ℤ → Arr3 ℂ) (s g : Arr2 ℂ),
      (∀ j, J_min ≤ j → j < J + 1 → anaWO O L (LN_j L j N lam mr).1 (LN_j L j N lam mr).2.1 (LN_j L j N lam mr).2.2 (psi.map C64.ofC) j (flm.map C64.ofC) = (t j).map C64.ofC) ∧
      (∀ j, J_min ≤ j → j < J + 1 → (t j).d = 2 * (LN_j L j N lam mr).2.1 - 1 ∧
        (t j).r = (LN_j L j N lam mr).1 ∧ (t j).c = 2 * (LN_j L j N lam mr).1 - 1) ∧
      anaSO O L (scal_bandlimit L J_min lam mr) (phi.map F64.fin) (flm.map C64.ofC) = s.map C64.ofC ∧
      s.r = scal_bandlimit L J_min lam mr ∧ s.c = 2 * scal_bandlimit L J_min lam mr - 1 ∧
      synAO O mr L N J_min J lam (psi.map C64.ofC) (phi.map F64.fin) (fun j => (t j).map C64.ofC) (s.map C64.ofC) = g.map C64.ofC ∧
      g.r = L ∧ g.c = 2 * L - 1 ∧
      ∀ l m, ‖g.v l m - (frameSum J_min J L psi phi l : ℂ) * flm.v l m‖ ≤ (N + J + 10) / 2 ^ 19 * ‖flm.v l m‖ + 2 ^ (-75 : ℤ) := by
  have he := eta_pos
  have hb := scal_bandlimit_bounds hL1 hlam J_min mr
  have hpsi : ∀ j, J_min ≤ j → j ≤ J → ∀ l k, 0 ≤ l → l < L → ‖psi.v j l k‖ ≤ 2 ^ (12 : ℤ) := fun j a b l k c d =>
    frame_psi hc c (by omega) (hF l c d) a b k
  have hphi : ∀ l, 0 ≤ l → l < L → |phi.v l| ≤ 2 ^ (12 : ℤ) := fun l c d => frame_phi c (by omega) (hF l c d)
  obtain ⟨t', ht'⟩ := anaWO_single (psi := psi) hO hL hf
  obtain ⟨s', hs'⟩ := anaSO_single (phi := phi) hO hL hphi hf
  set t : ℤ → Arr3 ℂ := fun j => t' j (LN_j L j N lam mr).1 (LN_j L j N lam mr).2.1 (LN_j L j N lam mr).2.2 with ht
  have hLj := fun j => LN_j_Lj_bounds (N := N) hL1 hlam j mr
  have hNj := fun j => LN_j_Nj_bounds hL1 hlam hN1 j mr
  have hL0 : ∀ j, 0 ≤ (LN_j L j N lam mr).2.2 := fun j => by
    rcases hp : LN_j L j N lam mr with ⟨Lj, Nj, L0j⟩
    exact (LN_bounds hL1 hN1 hNL hlam j mr hp).2.2.2.2
  have T1 := fun j (a : J_min ≤ j) (b : j ≤ J) => ht' j (LN_j L j N lam mr).1 (LN_j L j N lam mr).2.1 (LN_j L j N lam mr).2.2 (hpsi j a b) (hL0 j) (hLj j).2
  obtain ⟨S1, S2, S3, S4⟩ := hs' (scal_bandlimit L J_min lam mr) hb.2
  set s : Arr2 ℂ := s' (scal_bandlimit L J_min lam mr) with hs
  -- the entries of the result
  have key : ∀ l m : ℤ, ∃ z : ℂ, 0 ≤ l → l < L → 0 ≤ m → m < 2 * L - 1 →
      synSO O L (scal_bandlimit L J_min lam mr) (phi.map F64.fin) (s.map C64.ofC) l m
        (synPO O mr L N J_min lam (psi.map C64.ofC) (fun j => (t j).map C64.ofC) (J + 1) l m) = .ofC z ∧
      ‖z - (frameSum J_min J L psi phi l : ℂ) * flm.v l m‖ ≤ (N + J + 10) / 2 ^ 19 * ‖flm.v l m‖ + 2 ^ (-75 : ℤ) := by
    intro l m
    by_cases hr : 0 ≤ l ∧ l < L ∧ 0 ≤ m ∧ m < 2 * L - 1
    swap
    · exact ⟨0, fun a b c d => absurd ⟨a, b, c, d⟩ hr⟩
    obtain ⟨hl0, hl1, hm0, hm1⟩ := hr
    obtain ⟨kp, kb⟩ := k8_bounds hl0
    obtain ⟨kp4, kb4⟩ := k4_bounds hl0
    set f := ‖flm.v l m‖ with hfd
    have hf0 : 0 ≤ f := norm_nonneg _
    set p := |phi.v l| * k4 l with hpd
    have hp0 : 0 ≤ p := by positivity
    have hpb : p ≤ 2 ^ (14 : ℤ) := p2_mul _ (hphi l hl0 hl1) kb4 kp4.le (by norm_num)
    set ψ : ℤ → ℤ → ℝ := fun j k => ‖psi.v j l (L - (LN_j L j N lam mr).2.1 + 2 * k)‖ with hψ
    have hψb : ∀ j, J_min ≤ j → j ≤ J → ∀ k, ψ j k ≤ 2 ^ (12 : ℤ) := fun j a b k => hpsi j a b l _ hl0 hl1
    have hψ0 : ∀ j k, 0 ≤ ψ j k := fun j k => norm_nonneg _
    have hf1 : f ≤ 2 ^ (20 : ℤ) := hf l m
    obtain ⟨z, hz, nz⟩ := syn_entry hO hL1 hL hlam hN1 (by omega : N ≤ 2 ^ 16) h0 h1 (by omega : J < 2 ^ 16) (l := l) (m := m) hl0 hl1
      (psi := psi) (phi := phi)
      (fun j a b k => hpsi j a b l k hl0 hl1) (hphi l hl0 hl1)
      (t := fun j => anaW L (LN_j L j N lam mr).1 (LN_j L j N lam mr).2.1 (LN_j L j N lam mr).2.2 psi j flm) (t' := t)
      (s := anaS L (scal_bandlimit L J_min lam mr) phi flm) (s' := s) (kt := 5) (by norm_num)
      (A := fun j k => f * (ψ j k * k8 l)) (T := fun j k => f * (ψ j k * k8 l + eta) + eta + eta)
      (B := f * p) (S := f * (p + eta) + eta)
      (fun j a b k hlj => by
        have := ((T1 j a b).2.2.2.2 (2 * k) l (m - (L - (LN_j L j N lam mr).1)) hl0 hlj).1
        rw [add_sub_cancel] at this
        exact this)
      (fun j a b k => by
        have c : ψ j k * k8 l + eta ≤ 2 ^ (20 : ℤ) :=
          p2_add (a := 19) (b := 0) _ (p2_mul _ (hψb j a b k) kb kp.le (by norm_num)) eta_le (by norm_num) (by norm_num)
        exact p2_add (a := 41) (b := 0) _ (p2_add (a := 40) (b := 0) _ (p2_mul _ hf1 c (by have := hψ0 j k; positivity) (by norm_num)) eta_le (by norm_num) (by norm_num))
          eta_le (by norm_num) (by norm_num))
      (fun hls => by
        have := (S4 l (m - (L - scal_bandlimit L J_min lam mr)) hl0 hls).1
        rw [add_sub_cancel] at this
        exact this.mono (by norm_num) le_rfl)
      (by
        have c : p + eta ≤ 2 ^ (15 : ℤ) := p2_add (a := 14) (b := 0) _ hpb eta_le (by norm_num) (by norm_num)
        exact p2_add (a := 36) (b := 0) _ (p2_mul _ hf1 c (by positivity) (by norm_num)) eta_le (by norm_num) (by norm_num))
    refine ⟨z, fun _ _ _ _ => ⟨hz, ?_⟩⟩
    -- the exact value
    have hex := congrArg (fun a : Arr2 ℂ => a.v l m) (syn_ana (J := J) hT hc hfl (fun j => anaW L (LN_j L j N lam mr).1 (LN_j L j N lam mr).2.1 (LN_j L j N lam mr).2.2 psi j flm) (fun j _ _ => rfl))
    simp only [synA] at hex
    rw [Arr2.of_v _ _ _ _ _ ⟨hl0, hl1, hm0, hm1⟩, degMul, Arr2.of_v _ _ _ _ _ ⟨hl0, by rw [hfl.1]; exact hl1, hm0, by rw [hfl.2.1]; exact hm1⟩] at hex
    rw [hex] at nz
    -- the moduli
    have hA : (∑ j ∈ Finset.Ico J_min (J + 1), if InW mr L N lam j l m then ∑ k ∈ Finset.Ico 0 (LN_j L j N lam mr).2.1, ψ j k * (f * (ψ j k * k8 l)) else 0) +
        (if InS mr L J_min lam l m then f * p * p else 0) ≤ 2 * f := by
      have h2 := hF l hl0 hl1
      rw [frameSum_k l hl0] at h2
      have e1 : (if InS mr L J_min lam l m then f * p * p else 0) ≤ f * (k4 l ^ 2 * phi.v l ^ 2) := by
        have : f * p * p = f * (k4 l ^ 2 * phi.v l ^ 2) := by rw [hpd, ← sq_abs (phi.v l)]; ring
        rw [← this]
        split_ifs
        · exact le_rfl
        · positivity
      have e2 : (∑ j ∈ Finset.Ico J_min (J + 1), if InW mr L N lam j l m then ∑ k ∈ Finset.Ico 0 (LN_j L j N lam mr).2.1, ψ j k * (f * (ψ j k * k8 l)) else 0) ≤
          f * (k8 l * ∑ j ∈ Finset.Ico J_min (J + 1), ∑ k ∈ Finset.Ico 0 (2 * L - 1), ‖psi.v j l k‖ ^ 2) := by
        rw [Finset.mul_sum, Finset.mul_sum]
        refine Finset.sum_le_sum fun j _ => ?_
        have q : ∑ k ∈ Finset.Ico 0 (LN_j L j N lam mr).2.1, ψ j k * (f * (ψ j k * k8 l)) =
            f * (k8 l * ∑ k ∈ Finset.Ico 0 (LN_j L j N lam mr).2.1, ‖psi.v j l (L - (LN_j L j N lam mr).2.1 + 2 * k)‖ ^ 2) := by
          rw [Finset.mul_sum, Finset.mul_sum]
          exact Finset.sum_congr rfl fun k _ => by rw [hψ]; ring
        have q2 := sum_second_le (L := L) ((hNj j).2.1.trans hNL) (fun k => ‖psi.v j l k‖ ^ 2) fun _ => by positivity
        split_ifs
        · rw [q]
          exact mul_le_mul_of_nonneg_left (mul_le_mul_of_nonneg_left q2 kp.le) hf0
        · exact mul_nonneg hf0 (mul_nonneg kp.le (Finset.sum_nonneg fun _ _ => by positivity))
      have := mul_le_mul_of_nonneg_left h2 hf0
      rw [mul_add] at this
      linarith
    have hn0 : (((J + 1 - J_min).toNat : ℕ) : ℝ) ≤ 2 ^ 10 := by exact_mod_cast (by omega : (J + 1 - J_min).toNat ≤ 2 ^ 10)
    have hTA : (∑ j ∈ Finset.Ico J_min (J + 1), if InW mr L N lam j l m then (∑ k ∈ Finset.Ico 0 (LN_j L j N lam mr).2.1,
          ψ j k * (f * (ψ j k * k8 l + eta) + eta + eta) + 2 * (LN_j L j N lam mr).2.1 * eta) + eta else 0) +
        (if InS mr L J_min lam l m then (f * (p + eta) + eta) * (p + eta) + eta + eta else 0) ≤
        ((∑ j ∈ Finset.Ico J_min (J + 1), if InW mr L N lam j l m then ∑ k ∈ Finset.Ico 0 (LN_j L j N lam mr).2.1, ψ j k * (f * (ψ j k * k8 l)) else 0) +
        (if InS mr L J_min lam l m then f * p * p else 0)) + 2 ^ (40 : ℤ) * eta * (f + 1) := by
      have he1 : eta ≤ 1 := by have := eta_le; norm_num at this; exact this
      have e1 : (if InS mr L J_min lam l m then (f * (p + eta) + eta) * (p + eta) + eta + eta else 0) ≤
          (if InS mr L J_min lam l m then f * p * p else 0) + 2 ^ 18 * eta * (f + 1) := by
        split_ifs
        · norm_num at hpb
          have : (f * (p + eta) + eta) * (p + eta) + eta + eta = f * p * p + eta * (f * (2 * p + eta) + (p + eta + 2)) := by ring
          rw [this]
          have i1 : f * (2 * p + eta) + (p + eta + 2) ≤ 2 ^ 18 * (f + 1) := by nlinarith
          have := mul_le_mul_of_nonneg_left i1 he.le
          linarith
        · positivity
      have e2 : (∑ j ∈ Finset.Ico J_min (J + 1), if InW mr L N lam j l m then (∑ k ∈ Finset.Ico 0 (LN_j L j N lam mr).2.1,
            ψ j k * (f * (ψ j k * k8 l + eta) + eta + eta) + 2 * (LN_j L j N lam mr).2.1 * eta) + eta else 0) ≤
          (∑ j ∈ Finset.Ico J_min (J + 1), if InW mr L N lam j l m then ∑ k ∈ Finset.Ico 0 (LN_j L j N lam mr).2.1, ψ j k * (f * (ψ j k * k8 l)) else 0) +
          2 ^ 10 * (2 ^ 26 * eta * (f + 1)) := by
        have st : ∀ j ∈ Finset.Ico J_min (J + 1), (if InW mr L N lam j l m then (∑ k ∈ Finset.Ico 0 (LN_j L j N lam mr).2.1,
            ψ j k * (f * (ψ j k * k8 l + eta) + eta + eta) + 2 * (LN_j L j N lam mr).2.1 * eta) + eta else 0) ≤
            (if InW mr L N lam j l m then ∑ k ∈ Finset.Ico 0 (LN_j L j N lam mr).2.1, ψ j k * (f * (ψ j k * k8 l)) else 0) + 2 ^ 26 * eta * (f + 1) := by
          intro j hj
          rw [Finset.mem_Ico] at hj
          split_ifs
          · have hnn := hNj j
            set n := (LN_j L j N lam mr).2.1
            have hnR : (n : ℝ) ≤ 2 ^ 10 := by exact_mod_cast (by omega : n ≤ 2 ^ 10)
            have hnR0 : (0 : ℝ) ≤ n := by exact_mod_cast (by omega : 0 ≤ n)
            have i0 : ∑ k ∈ Finset.Ico 0 n, ψ j k * (f * (ψ j k * k8 l + eta) + eta + eta) =
                ∑ k ∈ Finset.Ico 0 n, ψ j k * (f * (ψ j k * k8 l)) + ∑ k ∈ Finset.Ico 0 n, ψ j k * (eta * (f + 2)) := by
              rw [← Finset.sum_add_distrib]
              exact Finset.sum_congr rfl fun k _ => by ring
            have i1 : ∑ k ∈ Finset.Ico 0 n, ψ j k * (eta * (f + 2)) ≤ n * (2 ^ 12 * (eta * (f + 2))) := by
              have : ∀ k ∈ Finset.Ico 0 n, ψ j k * (eta * (f + 2)) ≤ 2 ^ 12 * (eta * (f + 2)) := fun k _ =>
                mul_le_mul_of_nonneg_right (by have := hψb j hj.1 (by omega) k; norm_num at this ⊢; exact this) (by positivity)
              refine (Finset.sum_le_card_nsmul _ _ _ this).trans (le_of_eq ?_)
              rw [Int.card_Ico, nsmul_eq_mul, sub_zero]
              have hcst : ((n.toNat : ℕ) : ℝ) = n := by
                have : ((n.toNat : ℤ) : ℝ) = n := by rw [Int.toNat_of_nonneg (by omega)]
                exact_mod_cast this
              rw [hcst]
            rw [i0]
            have i2 : n * (2 ^ 12 * (eta * (f + 2))) ≤ 2 ^ 10 * (2 ^ 12 * (eta * (f + 2))) := mul_le_mul_of_nonneg_right hnR (by positivity)
            have i3 : 2 * n * eta ≤ 2 * 2 ^ 10 * eta := mul_le_mul_of_nonneg_right (by linarith) he.le
            have i4 : 0 ≤ eta * f := by positivity
            nlinarith
          · positivity
        refine (Finset.sum_le_sum st).trans ?_
        rw [Finset.sum_add_distrib, Finset.sum_const, Int.card_Ico, nsmul_eq_mul]
        exact add_le_add le_rfl (mul_le_mul_of_nonneg_right hn0 (by positivity))
      have i5 : 2 ^ 18 * eta * (f + 1) + 2 ^ 10 * (2 ^ 26 * eta * (f + 1)) ≤ 2 ^ (40 : ℤ) * eta * (f + 1) := by
        have : 0 ≤ eta * (f + 1) := by positivity
        norm_num
        linarith
      linarith
    have hK : 5 + N.toNat + (J + 1 - J_min).toNat + 3 ≤ 2 ^ 18 := by omega
    have hKR : ((5 + N.toNat + (J + 1 - J_min).toNat + 3 : ℕ) : ℝ) ≤ N + J + 9 := by
      have : ((5 + N.toNat + (J + 1 - J_min).toNat + 3 : ℕ) : ℤ) ≤ N + J + 9 := by omega
      exact_mod_cast this
    have herr := nz.err
    have hAT := nz.2.1
    have hup := up_le hK
    have hup2 := up_le_two hK
    have hup1 := one_le_up (5 + N.toNat + (J + 1 - J_min).toNat + 3)
    set U := (1 + uu) ^ (5 + N.toNat + (J + 1 - J_min).toNat + 3)
    set K := ((5 + N.toNat + (J + 1 - J_min).toNat + 3 : ℕ) : ℝ)
    set Aa := (∑ j ∈ Finset.Ico J_min (J + 1), if InW mr L N lam j l m then ∑ k ∈ Finset.Ico 0 (LN_j L j N lam mr).2.1, ψ j k * (f * (ψ j k * k8 l)) else 0) +
        (if InS mr L J_min lam l m then f * p * p else 0)
    set Tt := (∑ j ∈ Finset.Ico J_min (J + 1), if InW mr L N lam j l m then (∑ k ∈ Finset.Ico 0 (LN_j L j N lam mr).2.1,
          ψ j k * (f * (ψ j k * k8 l + eta) + eta + eta) + 2 * (LN_j L j N lam mr).2.1 * eta) + eta else 0) +
        (if InS mr L J_min lam l m then (f * (p + eta) + eta) * (p + eta) + eta + eta else 0)
    refine herr.trans ?_
    have hA0 := nz.nonneg.1
    have hT0 := nz.nonneg.2
    have j1 : U * Tt - Aa ≤ (U - 1) * Aa + 2 * (Tt - Aa) := by nlinarith
    have j2 : (U - 1) * Aa ≤ (2 * K * uu) * (2 * f) := by
      refine mul_le_mul (by linarith) hA hA0 (by have := uu_pos; positivity)
    have j3 : (2 * K * uu) * (2 * f) ≤ (N + J + 9) / 2 ^ 19 * f := by
      rw [uu_eq]
      have := mul_le_mul_of_nonneg_right hKR hf0
      norm_num at *
      linarith
    have j4 : 2 * (Tt - Aa) ≤ 2 * 2 ^ (-80 : ℤ) * (f + 1) := by
      have := mul_le_mul_of_nonneg_right num_tiny (by linarith : 0 ≤ f + 1)
      linarith
    have j5 : 2 * (2 : ℝ) ^ (-80 : ℤ) ≤ 1 / 2 ^ 19 ∧ 2 * (2 : ℝ) ^ (-80 : ℤ) ≤ 2 ^ (-75 : ℤ) := by
      have e : 2 * (2 : ℝ) ^ (-80 : ℤ) = 2 ^ (-79 : ℤ) := by
        rw [show (-79 : ℤ) = 1 + -80 by norm_num, zpow_add₀ (by norm_num), zpow_one]
      rw [e]
      refine ⟨(p2_mono (show (-79 : ℤ) ≤ -19 by norm_num)).trans (le_of_eq ?_), p2_mono (by norm_num)⟩
      rw [show (-19 : ℤ) = -((19 : ℕ) : ℤ) by norm_num, zpow_neg, zpow_natCast, one_div]
    have j6 := mul_le_mul_of_nonneg_right j5.1 hf0
    have j7 := j5.2
    generalize (2 : ℝ) ^ (-80 : ℤ) = q1 at *
    generalize (2 : ℝ) ^ (-75 : ℤ) = q2 at *
    have j8 : ((N : ℝ) + J + 10) / 2 ^ 19 * f = (N + J + 9) / 2 ^ 19 * f + 1 / 2 ^ 19 * f := by ring
    linarith
  choose w hw using key
  refine ⟨t, s, Arr2.of L (2 * L - 1) w, fun j a b => (T1 j a (by omega)).1, fun j a b => (T1 j a (by omega)).2.imp_right fun h => ⟨h.1, h.2.1⟩, S1, S2, S3, ?_, rfl, rfl, ?_⟩
  · rw [map_ofC_of2]
    exact Arr2.of_congr fun l m a b c d => (hw l m a b c d).1
  · intro l m
    by_cases hr : 0 ≤ l ∧ l < L ∧ 0 ≤ m ∧ m < 2 * L - 1
    · rw [Arr2.of_v _ _ _ _ _ hr]
      exact (hw l m hr.1 hr.2.1 hr.2.2.1 hr.2.2.2).2
    · rw [Arr2.of_out _ _ _ _ _ hr, flm.junk _ _ (by rw [hfl.1, hfl.2.1]; exact hr), mul_zero, sub_zero, norm_zero, mul_zero, zero_add]
      positivity

end S2wav.Single
