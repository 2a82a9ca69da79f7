import Verif.Lemmas.Unified

/-! # The harmonic-space formulas computed by the transforms -/

namespace S2wav
open Classical

theorem Arr2.ext_co {a b : Arr2 ℂ} (hr : a.r = b.r) (hc : a.c = b.c) (h : ∀ l m, co2 a l m = co2 b l m) : a = b := by
  refine Arr2.ext' hr hc fun l i _ _ _ _ => ?_
  have := h l (i - (a.r - 1))
  rw [co2, co2, ← hr] at this
  simpa using this

theorem Arr3.ext_co {a b : Arr3 ℂ} (hd : a.d = b.d) (hr : a.r = b.r) (hc : a.c = b.c)
    (h : ∀ n l m, co3 a n l m = co3 b n l m) : a = b := by
  refine Arr3.ext' hd hr hc fun k l i _ _ _ _ _ _ => ?_
  have := h (k - (a.d - 1) / 2) l (i - (a.r - 1))
  rw [co3, co3, ← hr, ← hd] at this
  simpa using this

theorem co2_of (r c : ℤ) (f : ℤ → ℤ → ℂ) (l m : ℤ) :
    co2 (Arr2.of r c f) l m = if 0 ≤ l ∧ l < r ∧ 0 ≤ r - 1 + m ∧ r - 1 + m < c then f l (r - 1 + m) else 0 := rfl

theorem co3_of (N r c : ℤ) (f : ℤ → ℤ → ℤ → ℂ) (n l m : ℤ) :
    co3 (Arr3.of (2 * N - 1) r c f) n l m = if 0 ≤ N - 1 + n ∧ N - 1 + n < 2 * N - 1 ∧ 0 ≤ l ∧ l < r ∧ 0 ≤ r - 1 + m ∧
      r - 1 + m < c then f (N - 1 + n) l (r - 1 + m) else 0 := by
  have e : ((Arr3.of (2 * N - 1) r c f).d - 1) / 2 = N - 1 := by
    change (2 * N - 1 - 1) / 2 = N - 1
    omega
  rw [co3, e]
  rfl

section
variable {L N J J_min : ℤ} {lam : ℝ} {mr : Bool} {spin : ℤ} {psi : Arr3 ℂ} {phi : Arr1 ℝ} {flm : Arr2 ℂ}

/-- no non-zero coefficient is lost by the finite size of the arrays -/
theorem wavCoeffs_co (hF : FltTrunc L N J_min lam mr psi phi) (hf : Tri2 L flm) {j Lj Nj L0j : ℤ}
    (hp : LN_j L j N lam mr = (Lj, Nj, L0j)) (n l m : ℤ) :
    co3 (wavCoeffs Lj Nj (fun l n => psi.v j l (L - 1 + n)) flm) n l m =
      ((8 * Real.pi ^ 2 / (2 * l + 1) : ℝ) : ℂ) * (co2 flm l m * (starRingEnd ℂ) (psi.v j l (L - 1 + n))) := by
  have hsup := hF.psi j l n
  rw [hp] at hsup
  dsimp only at hsup
  rw [wavCoeffs, co3_of]
  have e1 : Lj - 1 + m - (Lj - 1) = m := by ring
  have e2 : Nj - 1 + n - (Nj - 1) = n := by ring
  rw [e1, e2]
  split_ifs with hr
  · rfl
  · by_cases h0 : psi.v j l (L - 1 + n) = 0
    · rw [h0]; simp
    · obtain ⟨s1, s2, s3, s4⟩ := hsup h0
      rw [abs_lt] at s3
      have : flm.v l (L - 1 + m) = 0 := by
        by_cases hl : 0 ≤ l
        · exact hf.2.2 l m (by rw [lt_abs]; omega)
        · exact Arr2.junk _ _ _ (by omega)
      rw [hf.co, this]; simp

theorem anaW_eq (hF : FltTrunc L N J_min lam mr psi phi) (hf : Tri2 L flm) {j Lj Nj L0j : ℤ}
    (hp : LN_j L j N lam mr = (Lj, Nj, L0j)) :
    anaW L Lj Nj L0j psi j flm = wavCoeffs Lj Nj (fun l n => psi.v j l (L - 1 + n)) flm :=
  Arr3.ext_co rfl rfl rfl fun n l m => by rw [anaW_co hF hf hp, wavCoeffs_co hF hf hp]

theorem anaS_eq (Ls : ℤ) (hr : flm.r = L) : anaS L Ls phi flm = scalCoeffs Ls phi.v flm := by
  refine Arr2.of_congr fun l i _ _ _ _ => ?_
  have e : flm.r - 1 + (i - (Ls - 1)) = L - Ls + i := by rw [hr]; ring
  rw [co2, e]; push_cast; ring

theorem scalCoeffs_co (hF : FltTrunc L N J_min lam mr psi phi) (hf : Tri2 L flm) (l m : ℤ) :
    co2 (scalCoeffs (scal_bandlimit L J_min lam mr) phi.v flm) l m =
      ((Real.sqrt (4 * Real.pi / (2 * l + 1)) * phi.v l : ℝ) : ℂ) * co2 flm l m := by
  rw [← anaS_eq _ hf.1, anaS_co hF hf]

theorem sum_cols_Ioo {M : Type} [AddCommMonoid M] (g : ℤ → M) :
    ∑ i ∈ Finset.Ico 0 (2 * L - 1), g i = ∑ n ∈ Finset.Ioo (-L) L, g (L - 1 + n) := by
  refine Finset.sum_bij (fun i _ => i - (L - 1)) ?_ ?_ ?_ ?_
  · intro i hi; rw [Finset.mem_Ico] at hi; rw [Finset.mem_Ioo]; omega
  · intro a _ b _ h; omega
  · intro n hn; rw [Finset.mem_Ioo] at hn
    exact ⟨L - 1 + n, by rw [Finset.mem_Ico]; omega, by ring⟩
  · intro i _; congr 1; ring

/-- one scale of the synthesis -/
theorem synW_eq (hF : FltTrunc L N J_min lam mr psi phi) (hs : psi.c = 2 * L - 1) {j Lj Nj L0j : ℤ}
    (hp : LN_j L j N lam mr = (Lj, Nj, L0j)) {t : Arr3 ℂ} (ht : Tri3 Lj Nj t) (l i : ℤ) :
    synW L Lj Nj L0j psi j t l i = ∑ n ∈ Finset.Ioo (-L) L, psi.v j l (L - 1 + n) * co3 t n l (i - (L - 1)) := by
  have hsup := fun n => hF.psi j l n
  rw [hp] at hsup
  dsimp only at hsup
  have hco : ∀ n, co3 t n l (i - (L - 1)) = t.v (Nj - 1 + n) l (Lj - 1 + (i - (L - 1))) := by
    intro n
    have e : (2 * Nj - 1 - 1) / 2 = Nj - 1 := by omega
    rw [co3, ht.1, ht.2.1, e]
  have hz : ¬ (L0j ≤ l ∧ l < Lj ∧ L - Lj ≤ i ∧ i < L - 1 + Lj) → ∀ n, psi.v j l (L - 1 + n) * co3 t n l (i - (L - 1)) = 0 := by
    intro hc n
    by_cases h0 : psi.v j l (L - 1 + n) = 0
    · rw [h0, zero_mul]
    · have h1 := hsup n h0
      have : co3 t n l (i - (L - 1)) = 0 := by
        rw [hco]
        by_cases hl : 0 ≤ l
        · exact ht.2.2.2 _ _ _ (by rw [lt_abs]; omega)
        · exact Arr3.junk _ _ _ _ (by omega)
      rw [this, mul_zero]
  unfold synW
  by_cases hc : L0j ≤ l ∧ l < Lj ∧ L - Lj ≤ i ∧ i < L - 1 + Lj
  · rw [if_pos hc]
    have h1 := sum_every_second (L := L) (Nj := Nj) (fun x => psi.v j l x * t.v (x - (L - Nj)) l (i - (L - Lj)))
      (fun n hn => by
        have hne : psi.v j l (L - 1 + n) ≠ 0 := by intro h0; apply hn; simp [h0]
        exact (hsup n hne).2.2) (fun x hx => by
          have : psi.v j l x = 0 := psi.junk _ _ _ (by rw [hs]; omega)
          simp [this])
    rw [sum_cols_Ioo] at h1
    refine (Finset.sum_congr rfl fun k _ => ?_).trans (h1.trans (Finset.sum_congr rfl fun n _ => ?_))
    · have e : L - Nj + 2 * k - (L - Nj) = 2 * k := by ring
      rw [e]
    · have e : L - 1 + n - (L - Nj) = Nj - 1 + n := by ring
      have e' : Lj - 1 + (i - (L - 1)) = i - (L - Lj) := by ring
      rw [hco, e, e']
  · rw [if_neg hc]
    exact (Finset.sum_eq_zero fun n _ => hz hc n).symm

theorem synA_eq (hF : FltTrunc L N J_min lam mr psi phi) (hs : psi.c = 2 * L - 1) {t : ℤ → Arr3 ℂ}
    (ht : ∀ j, J_min ≤ j → j < J + 1 → Tri3 (LN_j L j N lam mr).1 (LN_j L j N lam mr).2.1 (t j)) {s : Arr2 ℂ}
    (hS : Tri2 (scal_bandlimit L J_min lam mr) s) :
    synA L N J_min J lam mr psi phi t s = synCoeffs L J_min J (fun j l n => psi.v j l (L - 1 + n)) phi.v t s := by
  unfold synA synCoeffs
  refine Arr2.of_congr fun l i hl0 hl1 hi0 hi1 => ?_
  have hI : Finset.Icc J_min J = Finset.Ico J_min (J + 1) := by
    ext x; simp only [Finset.mem_Icc, Finset.mem_Ico]; omega
  rw [hI]
  congr 1
  · refine Finset.sum_congr rfl fun j hj => ?_
    rw [Finset.mem_Ico] at hj
    exact synW_eq hF hs rfl (ht j hj.1 hj.2) l i
  · have hsup := hF.phi l
    rw [hS.co]
    unfold synS
    generalize scal_bandlimit L J_min lam mr = Ls at *
    have e : Ls - 1 + (i - (L - 1)) = i - (L - Ls) := by ring
    rw [e]
    by_cases hc : l < Ls ∧ L - Ls ≤ i ∧ i < L - 1 + Ls
    · rw [if_pos hc]; push_cast; ring
    · rw [if_neg hc]
      by_cases h0 : phi.v l = 0
      · rw [h0]; simp
      · have h1 := hsup h0
        have : s.v l (i - (L - Ls)) = 0 := by
          rw [← e]
          exact hS.2.2 _ _ (by rw [lt_abs]; omega)
        rw [this]; simp

end

section
variable {jm : JMax} {c : Cfg} {J : ℤ} {psi : Arr3 ℂ} {phi : Arr1 ℝ}

theorem Cfg.Filters.cut {b : Backend} (hG : c.Filters J b.mr psi phi) : c.Filters J b.mr (b.cut c psi) phi := by
  have e : (b.cut c psi).d = psi.d ∧ (b.cut c psi).r = psi.r ∧ (b.cut c psi).c = psi.c := by
    unfold Backend.cut
    split_ifs
    · exact ⟨rfl, rfl, rfl⟩
    · exact ⟨rfl, rfl, rfl⟩
  refine ⟨by rw [e.1]; exact hG.d, by rw [e.2.1]; exact hG.r, by rw [e.2.2]; exact hG.cols, hG.n, fun j l n h => ?_, hG.scal,
    fun hr j l n => ?_⟩
  · rw [b.cut_v] at h
    split_ifs at h
    · exact hG.wav j l n h
    · exact absurd rfl h
  · rw [b.cut_v, b.cut_v]
    split_ifs
    · exact hG.sym hr j l n
    · simp

/-- analysis in terms of the harmonic-space formulas, with given filters -/
theorem Backend.analysisWith_formula' (hv : c.Core jm J) (b : Backend) (hR : b.Ready jm c)
    (hE : (b.engine c).Std c.reality) (hsrc : b.isBase = true → b.filters jm c = .ok (psi, phi))
    (hG : c.Filters J b.mr psi phi) (hfit : b.Fits c J psi) (f : Px) :
    b.analysisWith jm c (psi, phi) f = (do
      let flm ← (b.engine c).sphF f c.L
      let w ← (pyRange c.J_min (J + 1)).mapM fun j =>
        (b.engine c).wigI (wavCoeffs (c.Lj b.mr j) (c.Nj b.mr j) (fun l n => (b.cut c psi).v j l (c.L - 1 + n)) flm)
          (c.Lj b.mr j) (c.Nj b.mr j) (c.L0 b.mr j)
      let s ← b.scalI c (scalCoeffs (c.Ls b.mr) phi.v flm)
      .ok (w, s)) := by
  rw [b.analysisWith_spec' hv hR hE hsrc hG.shape hfit f]
  unfold specAna
  refine Py.bind_congr fun flm hf => ?_
  have hf := (hE.sph f c.L flm hf).1.tri
  have hF := hG.cut.trunc
  rw [anaS_eq _ hf.1]
  have : ∀ j, anaW c.L (LN_j c.L j c.N c.lam b.mr).1 (LN_j c.L j c.N c.lam b.mr).2.1 (LN_j c.L j c.N c.lam b.mr).2.2 (b.cut c psi) j flm
      = wavCoeffs (c.Lj b.mr j) (c.Nj b.mr j) (fun l n => (b.cut c psi).v j l (c.L - 1 + n)) flm :=
    fun j => anaW_eq hF hf rfl
  simp only [this]
  rfl

theorem Backend.analysisWith_formula (hv : c.Valid jm J) (b : Backend) (hR : b.Ready jm c)
    (hE : (b.engine c).Std c.reality) (hsrc : b.isBase = true → b.filters jm c = .ok (psi, phi))
    (hG : c.Filters J b.mr psi phi) (f : Px) :
    b.analysisWith jm c (psi, phi) f = (do
      let flm ← (b.engine c).sphF f c.L
      let w ← (pyRange c.J_min (J + 1)).mapM fun j =>
        (b.engine c).wigI (wavCoeffs (c.Lj b.mr j) (c.Nj b.mr j) (fun l n => psi.v j l (c.L - 1 + n)) flm)
          (c.Lj b.mr j) (c.Nj b.mr j) (c.L0 b.mr j)
      let s ← b.scalI c (scalCoeffs (c.Ls b.mr) phi.v flm)
      .ok (w, s)) := by
  rw [b.analysisWith_formula' hv.core hR hE hsrc hG (b.fits_valid hv psi), b.cut_valid hv]

/-- analysis in terms of the harmonic-space formulas -/
theorem Backend.analysis_formula (hv : c.Valid jm J) (b : Backend) (hR : b.Ready jm c)
    (hE : (b.engine c).Std c.reality) (hflt : b.filters jm c = .ok (psi, phi)) (f : Px) :
    b.analysis jm c f = (do
      let flm ← (b.engine c).sphF f c.L
      let w ← (pyRange c.J_min (J + 1)).mapM fun j =>
        (b.engine c).wigI (wavCoeffs (c.Lj b.mr j) (c.Nj b.mr j) (fun l n => psi.v j l (c.L - 1 + n)) flm)
          (c.Lj b.mr j) (c.Nj b.mr j) (c.L0 b.mr j)
      let s ← b.scalI c (scalCoeffs (c.Ls b.mr) phi.v flm)
      .ok (w, s)) := by
  rw [b.analysis_eq_with hflt]
  exact b.analysisWith_formula hv hR hE (fun _ => hflt) (filters_ok hv hflt b.mr) f

/-- synthesis in terms of the harmonic-space formulas, with given filters -/
theorem Backend.synthesisWith_formula' (hv : c.Core jm J) (b : Backend) (hR : b.Ready jm c)
    (hE : (b.engine c).Std c.reality) (hN : b.isLooped = true → c.reality = true → (b.engine c).NonnegOnly)
    (hsrc : b.isBase = true → b.filters jm c = .ok (psi, phi)) (hG : c.Filters J b.mr psi phi) (hfit : b.Fits c J psi) (w : List Px) (s : Px) :
    b.synthesisWith jm c (psi, phi) w s = (do
      let _ ← b.check jm c w s
      let S ← (b.engine c).sphF (b.fscal c s) (c.Ls b.mr)
      let W ← (pyRange c.J_min (J + 1)).mapM fun j => do
        let fw ← listGet w (j - c.J_min)
        (b.engine c).wigF fw (c.Lj b.mr j) (c.Nj b.mr j) (c.L0 b.mr j)
      (b.engine c).sphI (synCoeffs c.L c.J_min J (fun j l n => (b.cut c psi).v j l (c.L - 1 + n)) phi.v (nth z3 c.J_min W) S)
        c.L) := by
  rw [b.synthesisWith_spec' hv hR hE hN hsrc hG.shape hfit w s]
  unfold specSyn
  refine congrArg _ (funext fun _ => ?_)
  refine Py.bind_congr fun S hS => ?_
  refine Py.bind_congr fun W hW => ?_
  have hF := hG.cut.trunc
  have hs := hG.cut.cols
  rw [synA_eq hF hs (fun j hj0 hj1 => ?_) (hE.sph _ _ _ hS).1.tri]
  obtain ⟨x, hx, hm⟩ := mapM_get hW hj0 hj1
  obtain ⟨fw, -, hm⟩ := Py.bind_eq_ok.1 hm
  have : nth z3 c.J_min W j = x := by
    unfold listGet at hx
    rw [if_pos (by omega)] at hx
    unfold nth
    split at hx
    · rename_i y hy
      cases hx
      simp [hy]
    · cases hx
  rw [this]
  exact (hE.wig _ _ _ _ _ hm).tri

theorem Backend.synthesisWith_formula (hv : c.Valid jm J) (b : Backend) (hR : b.Ready jm c)
    (hE : (b.engine c).Std c.reality) (hN : b.isLooped = true → c.reality = true → (b.engine c).NonnegOnly)
    (hsrc : b.isBase = true → b.filters jm c = .ok (psi, phi)) (hG : c.Filters J b.mr psi phi) (w : List Px) (s : Px) :
    b.synthesisWith jm c (psi, phi) w s = (do
      let _ ← b.check jm c w s
      let S ← (b.engine c).sphF (b.fscal c s) (c.Ls b.mr)
      let W ← (pyRange c.J_min (J + 1)).mapM fun j => do
        let fw ← listGet w (j - c.J_min)
        (b.engine c).wigF fw (c.Lj b.mr j) (c.Nj b.mr j) (c.L0 b.mr j)
      (b.engine c).sphI (synCoeffs c.L c.J_min J (fun j l n => psi.v j l (c.L - 1 + n)) phi.v (nth z3 c.J_min W) S)
        c.L) := by
  rw [b.synthesisWith_formula' hv.core hR hE hN hsrc hG (b.fits_valid hv psi), b.cut_valid hv]

/-- synthesis in terms of the harmonic-space formulas -/
theorem Backend.synthesis_formula (hv : c.Valid jm J) (b : Backend) (hR : b.Ready jm c)
    (hE : (b.engine c).Std c.reality) (hN : b.isLooped = true → c.reality = true → (b.engine c).NonnegOnly)
    (hflt : b.filters jm c = .ok (psi, phi)) (w : List Px) (s : Px) :
    b.synthesis jm c w s = (do
      let _ ← b.check jm c w s
      let S ← (b.engine c).sphF (b.fscal c s) (c.Ls b.mr)
      let W ← (pyRange c.J_min (J + 1)).mapM fun j => do
        let fw ← listGet w (j - c.J_min)
        (b.engine c).wigF fw (c.Lj b.mr j) (c.Nj b.mr j) (c.L0 b.mr j)
      (b.engine c).sphI (synCoeffs c.L c.J_min J (fun j l n => psi.v j l (c.L - 1 + n)) phi.v (nth z3 c.J_min W) S)
        c.L) := by
  rw [b.synthesis_eq_with hflt]
  exact b.synthesisWith_formula hv hR hE hN (fun _ => hflt) (filters_ok hv hflt b.mr) w s

end

end S2wav
