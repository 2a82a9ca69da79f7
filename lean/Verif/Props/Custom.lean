import Verif.Props.Transforms

/-! # Filters supplied by the user, and filters computed with rounding errors

The JAX, C, precompute and torch transforms take the filters as an argument.  C67 says what they do with arbitrary
filters, C68 what this means for filters that differ from the exact ones by rounding. -/

namespace S2wav
open Classical

section
variable {jm : JMax} {c : Cfg} {J : ℤ} {psi psi' : Arr3 ℂ} {phi phi' : Arr1 ℝ} {b : Backend} {f : Px} {flm : Arr2 ℂ}

/-- the entries of the filters the transforms read: degrees and orders kept at each scale, orders of one parity -/
structure SameKept (c : Cfg) (J : ℤ) (psi psi' : Arr3 ℂ) (phi phi' : Arr1 ℝ) : Prop where
  wav : ∀ j l n, c.J_min ≤ j → j ≤ J → c.L0 true j ≤ l → l < c.Lj true j → |n| < c.Nj true j → (c.Nj true j - 1 - n) % 2 = 0 →
    psi.v j l (c.L - 1 + n) = psi'.v j l (c.L - 1 + n)
  scal : ∀ l, 0 ≤ l → l < c.Ls true → phi.v l = phi'.v l

theorem mr_of_not_base (hb : b.isBase = false) : b.mr = true := by
  cases b
  case base => cases hb
  case looped => cases hb
  all_goals rfl

/-- **C67** nothing else is read: filters that agree on the kept entries give the same analysis and the same synthesis,
whatever they contain elsewhere. -/
theorem C67_ignored (hv : c.Valid jm J) (hb : b.isBase = false) (hR : b.Ready jm c) (hE : (b.engine c).Std c.reality)
    (hs : J < psi.d ∧ psi.r = c.L ∧ psi.c = 2 * c.L - 1 ∧ phi.n = c.L)
    (hs' : J < psi'.d ∧ psi'.r = c.L ∧ psi'.c = 2 * c.L - 1 ∧ phi'.n = c.L) (h : SameKept c J psi psi' phi phi') :
    (∀ f, b.analysisWith jm c (psi, phi) f = b.analysisWith jm c (psi', phi') f) ∧
    (∀ w s, b.synthesisWith jm c (psi, phi) w s = b.synthesisWith jm c (psi', phi') w s) := by
  have hF : FltShape c.L J psi phi := ⟨hs.1, hs.2.1, hs.2.2.1, hs.2.2.2⟩
  have hF' : FltShape c.L J psi' phi' := ⟨hs'.1, hs'.2.1, hs'.2.2.1, hs'.2.2.2⟩
  have hmr := mr_of_not_base hb
  have hno : ∀ {p : Arr3 ℂ × Arr1 ℝ}, b.isBase = true → b.filters jm c = .ok p := fun h => by rw [hb] at h; cases h
  constructor
  · intro f
    rw [b.analysisWith_spec hv hR hE hno hF, b.analysisWith_spec hv hR hE hno hF', hmr]
    unfold specAna
    refine congrArg _ (funext fun flm => ?_)
    have e1 : anaS c.L (scal_bandlimit c.L c.J_min c.lam true) phi flm =
        anaS c.L (scal_bandlimit c.L c.J_min c.lam true) phi' flm :=
      Arr2.of_congr fun l m h0 h1 _ _ => by rw [h.scal l h0 h1]
    rw [e1]
    have e2 : (pyRange c.J_min (J + 1)).mapM (fun j => (b.engine c).wigI (anaW c.L (LN_j c.L j c.N c.lam true).1
          (LN_j c.L j c.N c.lam true).2.1 (LN_j c.L j c.N c.lam true).2.2 psi j flm) (c.Lj true j) (c.Nj true j) (c.L0 true j)) =
        (pyRange c.J_min (J + 1)).mapM (fun j => (b.engine c).wigI (anaW c.L (LN_j c.L j c.N c.lam true).1
          (LN_j c.L j c.N c.lam true).2.1 (LN_j c.L j c.N c.lam true).2.2 psi' j flm) (c.Lj true j) (c.Nj true j) (c.L0 true j)) := by
      refine mapM_congr' fun j hj => ?_
      rw [mem_pyRange] at hj
      congr 1
      refine Arr3.of_congr fun k l m hk0 hk1 hl0 hl1 _ _ => ?_
      split_ifs with hc
      · have hk1 : k < 2 * c.Nj true j - 1 := hk1
        have e : c.L - (LN_j c.L j c.N c.lam true).2.1 + k = c.L - 1 + (k - (c.Nj true j - 1)) := by
          show c.L - c.Nj true j + k = _
          ring
        rw [e, h.wav j l _ hj.1 (by omega) hc.2 hl1 (by rw [abs_lt]; omega) (by omega)]
      · rfl
    rw [e2]
  · intro w s
    rw [b.synthesisWith_spec hv hR hE (fun hl => by cases b <;> simp [Backend.isBase, Backend.isLooped] at hb hl) hno hF,
      b.synthesisWith_spec hv hR hE (fun hl => by cases b <;> simp [Backend.isBase, Backend.isLooped] at hb hl) hno hF', hmr]
    unfold specSyn
    refine congrArg _ (funext fun _ => ?_)
    refine congrArg _ (funext fun S => ?_)
    refine congrArg _ (funext fun W => ?_)
    refine congrArg (fun a => (b.engine c).sphI a c.L) ?_
    refine Arr2.of_congr fun l m hl0 hl1 hm0 hm1 => ?_
    congr 1
    · refine Finset.sum_congr rfl fun j hj => ?_
      rw [Finset.mem_Ico] at hj
      unfold synW
      split_ifs with hc
      · refine Finset.sum_congr rfl fun k hk => ?_
        rw [Finset.mem_Ico] at hk
        have hk1 : k < c.Nj true j := hk.2
        have e : c.L - (LN_j c.L j c.N c.lam true).2.1 + 2 * k = c.L - 1 + (2 * k - (c.Nj true j - 1)) := by
          show c.L - c.Nj true j + 2 * k = _
          ring
        rw [e, h.wav j l _ hj.1 (by omega) hc.1 hc.2.1 (by rw [abs_lt]; omega) (by omega)]
      · rfl
    · unfold synS
      split_ifs with hc
      · rw [h.scal l hl0 hc.1]
      · rfl

/-- **C67** synthesis after analysis, both with the same user-supplied filters, multiplies degree `l` by the frame sum of
these filters. -/
theorem C67_round_trip (hw : b.Works jm c J) (hb : b.isBase = false) (hG : c.Filters J true psi phi)
    (hf : (b.engine c).sphF f c.L = .ok flm) :
    ∃ w s glm, b.analysisWith jm c (psi, phi) f = .ok (w, s) ∧
      b.synthesisWith jm c (psi, phi) w s = (b.engine c).sphI glm c.L ∧ glm.r = c.L ∧ glm.c = 2 * c.L - 1 ∧
      ∀ l m, co2 glm l m = (frameSum c.J_min J c.L psi phi l : ℂ) * co2 flm l m := by
  have hG' : c.Filters J b.mr psi phi := by rw [mr_of_not_base hb]; exact hG
  have hno : b.isBase = true → b.filters jm c = .ok (psi, phi) := fun h => by rw [hb] at h; cases h
  obtain ⟨w, s, h, hran⟩ := b.analysisWith_run hw.valid hw.ready hw.std hw.exact hw.trip hno hG' hf
  have hbl := (hw.std.sph f c.L flm hf).1
  exact ⟨w, s, _, h, b.synthesisWith_run hw.valid hw.ready hw.std hw.trip hno hG' hf hran, hbl.r, hbl.c,
    fun l m => degMul_co _ _ _ _⟩

/-- the coefficients of a single degree, order 0 -/
private noncomputable def delta (L l0 : ℤ) : Arr2 ℂ := Arr2.of L (2 * L - 1) fun l i => if l = l0 ∧ i = L - 1 then 1 else 0

private theorem delta_co {L l0 : ℤ} (hl0 : 0 ≤ l0) (hl1 : l0 < L) (l m : ℤ) :
    co2 (delta L l0) l m = if l = l0 ∧ m = 0 then 1 else 0 := by
  unfold delta
  rw [co2_of]
  split_ifs <;> first | rfl | (exfalso; omega)

/-- **C67** exact reconstruction of every band-limited signal with user-supplied filters holds if and only if their frame
sum is 1 at every degree a signal can have. -/
theorem C67_reconstruction (hw : b.Works jm c J) (hb : b.isBase = false) (hG : c.Filters J true psi phi) :
    (∀ f flm, BL2 c.L c.spin flm → (c.reality = true → Herm2 flm) → (b.engine c).sphI flm c.L = .ok f →
      ∃ w s, b.analysisWith jm c (psi, phi) f = .ok (w, s) ∧ b.synthesisWith jm c (psi, phi) w s = .ok f) ↔
    ∀ l, 0 ≤ l → l < c.L → |c.spin| ≤ l → frameSum c.J_min J c.L psi phi l = 1 := by
  have hL := hw.valid.top.hL
  constructor
  · intro h l hl0 hl1 hs
    have hbl : ∀ x : ℝ, BL2 c.L c.spin (degMul (fun _ => x) (delta c.L l)) := fun x => by
      refine ⟨rfl, rfl, fun k m hk => ?_⟩
      rw [degMul_co, delta_co hl0 hl1, if_neg (by rintro ⟨rfl, rfl⟩; rw [abs_zero] at hk; omega), mul_zero]
    have hh : ∀ x : ℝ, Herm2 (degMul (fun _ => x) (delta c.L l)) := fun x k m => by
      rw [degMul_co, degMul_co, delta_co hl0 hl1, delta_co hl0 hl1]
      by_cases hm : m = 0
      · subst hm
        split_ifs <;> simp_all
      · rw [if_neg (by omega), if_neg (by omega)]; simp
    obtain ⟨f, hI, hF⟩ := hw.exact.sph c.L _ hL (hbl 1) (fun _ => hh 1)
    obtain ⟨w, s, h1, h2⟩ := h f _ (hbl 1) (fun _ => hh 1) hI
    obtain ⟨w', s', glm, h1', h2', hr, hc, hco⟩ := C67_round_trip hw hb hG hF
    rw [h1] at h1'
    cases h1'
    have hg : glm = degMul (fun _ => frameSum c.J_min J c.L psi phi l) (delta c.L l) := by
      refine Arr2.ext_co hr hc fun k m => ?_
      rw [hco, degMul_co, degMul_co, delta_co hl0 hl1]
      split_ifs with hk
      · rw [hk.1]; simp
      · simp
    rw [hg] at h2'
    obtain ⟨g, hI', hF'⟩ := hw.exact.sph c.L _ hL (hbl (frameSum c.J_min J c.L psi phi l)) (fun _ => hh _)
    rw [hI', h2] at h2'
    cases h2'
    rw [hF] at hF'
    have e := congrArg (fun r => match r with | .ok a => co2 a l 0 | .error _ => 0) hF'
    simp only [degMul_co, delta_co hl0 hl1, and_self, if_true, mul_one, Complex.ofReal_one] at e
    exact_mod_cast e.symm
  · intro h f flm hbl hh hI
    obtain ⟨p, hp, hp'⟩ := hw.exact.sph c.L flm hL hbl hh
    rw [hI] at hp
    cases hp
    obtain ⟨w, s, glm, h1, h2, hr, hc, hco⟩ := C67_round_trip hw hb hG hp'
    refine ⟨w, s, h1, ?_⟩
    have : glm = flm := by
      refine Arr2.ext_co (hr.trans hbl.r.symm) (hc.trans hbl.c.symm) fun l m => ?_
      rw [hco]
      by_cases h0 : co2 flm l m = 0
      · rw [h0, mul_zero]
      · have hl : 0 ≤ l ∧ l < c.L := by
          by_contra hcc
          exact h0 (flm.junk _ _ (by rw [hbl.r]; omega))
        rw [h l hl.1 hl.2 (by by_contra hcc; exact h0 (hbl.zero l m (Or.inr (by omega))))]
        simp
    rw [h2, this, hI]

/-! ## Rounding errors in the filters -/

/-- squared distance of two pairs of filters at degree `l`, weighted as in the frame sum -/
noncomputable def frameDist (J_min J L : ℤ) (psi psi' : Arr3 ℂ) (phi phi' : Arr1 ℝ) (l : ℤ) : ℝ :=
  4 * Real.pi / (2 * l + 1) * (phi'.v l - phi.v l) ^ 2 +
    8 * Real.pi ^ 2 / (2 * l + 1) * ∑ j ∈ Finset.Icc J_min J, ∑ k ∈ Finset.Ico 0 (2 * L - 1), ‖psi'.v j l k - psi.v j l k‖ ^ 2

theorem frameDist_comm (J_min J L l : ℤ) : frameDist J_min J L psi psi' phi phi' l = frameDist J_min J L psi' psi phi' phi l := by
  unfold frameDist
  congr 1
  · ring
  · refine congrArg _ (Finset.sum_congr rfl fun j _ => Finset.sum_congr rfl fun k _ => ?_)
    rw [norm_sub_rev]

private theorem sq_split {x y d e : ℝ} (he : 0 < e) (hx : 0 ≤ x) (hy : 0 ≤ y) (hd : 0 ≤ d) (h : x ≤ y + d) :
    x ^ 2 ≤ (1 + e) * y ^ 2 + (1 + 1 / e) * d ^ 2 := by
  have h1 : x ^ 2 ≤ (y + d) ^ 2 := pow_le_pow_left₀ hx h 2
  have h2 : 0 ≤ (e * y - d) ^ 2 / e := by positivity
  have h3 : (e * y - d) ^ 2 / e = e * y ^ 2 - 2 * (y * d) + 1 / e * d ^ 2 := by field_simp; ring
  nlinarith

theorem frameSum_le_of_dist {J_min J L l : ℤ} {e : ℝ} (hl : 0 ≤ l) (he : 0 < e) :
    frameSum J_min J L psi' phi' l ≤ (1 + e) * frameSum J_min J L psi phi l +
      (1 + 1 / e) * frameDist J_min J L psi psi' phi phi' l := by
  have hl' : (0 : ℝ) ≤ l := by exact_mod_cast hl
  have hpi := Real.pi_pos
  have h1 : phi'.v l ^ 2 ≤ (1 + e) * phi.v l ^ 2 + (1 + 1 / e) * (phi'.v l - phi.v l) ^ 2 := by
    have := sq_split he (abs_nonneg (phi'.v l)) (abs_nonneg (phi.v l)) (abs_nonneg (phi'.v l - phi.v l)) (by
      have := abs_add_le (phi.v l) (phi'.v l - phi.v l)
      rwa [add_sub_cancel] at this)
    simpa only [sq_abs] using this
  have h2 : ∑ j ∈ Finset.Icc J_min J, ∑ k ∈ Finset.Ico 0 (2 * L - 1), ‖psi'.v j l k‖ ^ 2 ≤
      (1 + e) * ∑ j ∈ Finset.Icc J_min J, ∑ k ∈ Finset.Ico 0 (2 * L - 1), ‖psi.v j l k‖ ^ 2 +
      (1 + 1 / e) * ∑ j ∈ Finset.Icc J_min J, ∑ k ∈ Finset.Ico 0 (2 * L - 1), ‖psi'.v j l k - psi.v j l k‖ ^ 2 := by
    rw [Finset.mul_sum, Finset.mul_sum, ← Finset.sum_add_distrib]
    refine Finset.sum_le_sum fun j _ => ?_
    rw [Finset.mul_sum, Finset.mul_sum, ← Finset.sum_add_distrib]
    refine Finset.sum_le_sum fun k _ => ?_
    refine sq_split he (norm_nonneg _) (norm_nonneg _) (norm_nonneg _) ?_
    have := norm_add_le (psi.v j l k) (psi'.v j l k - psi.v j l k)
    rwa [add_sub_cancel] at this
  have w1 : 0 ≤ 4 * Real.pi / (2 * (l : ℝ) + 1) := by positivity
  have w2 : 0 ≤ 8 * Real.pi ^ 2 / (2 * (l : ℝ) + 1) := by positivity
  have h3 := mul_le_mul_of_nonneg_left h1 w1
  have h4 := mul_le_mul_of_nonneg_left h2 w2
  unfold frameSum frameDist
  linarith

/-- **C68** how far filters within distance `e` of the exact ones can be from admissible -/
theorem C68_frame_sum {b' : Backend} (hv : c.Valid jm J) (hflt : b'.filters jm c = .ok (psi, phi)) (hb' : b'.isLooped = false)
    {e : ℝ} (he : 0 < e) {l : ℤ} (hl0 : 0 ≤ l) (hl1 : l < c.L) (hs : |c.spin| ≤ l)
    (hd : frameDist c.J_min J c.L psi psi' phi phi' l ≤ e ^ 2) :
    1 - 2 * e ≤ frameSum c.J_min J c.L psi' phi' l ∧
    frameSum c.J_min J c.L psi' phi' l ≤ 1001 / 1000 * (1 + e) + e + e ^ 2 := by
  obtain ⟨⟨g1, -⟩, g2⟩ := frameSum_bounds hv hflt hl0 hl1 hs
  have g2 := g2 hb'
  have hq : (1 + 1 / e) * e ^ 2 = e + e ^ 2 := by field_simp; ring
  have hm : (1 + 1 / e) * frameDist c.J_min J c.L psi psi' phi phi' l ≤ e + e ^ 2 := by
    rw [← hq]
    exact mul_le_mul_of_nonneg_left hd (by positivity)
  constructor
  · have h := frameSum_le_of_dist (psi := psi') (psi' := psi) (phi := phi') (phi' := phi) (J_min := c.J_min) (J := J)
      (L := c.L) hl0 he
    rw [frameDist_comm] at h
    have : (1 + e) * (1 - 2 * e) ≤ (1 + e) * frameSum c.J_min J c.L psi' phi' l := by nlinarith
    exact le_of_mul_le_mul_left this (by linarith)
  · have h := frameSum_le_of_dist (psi := psi) (psi' := psi') (phi := phi) (phi' := phi') (J_min := c.J_min) (J := J)
      (L := c.L) hl0 he
    nlinarith

/-- **C68** round trip with rounded filters: if at every degree the filters used are within `e` of the exact ones, each
harmonic coefficient is recovered up to a relative error of `0.001 + 2.001 e + e^2`. -/
theorem C68_round_trip (hw : b.Works jm c J) (hb : b.isBase = false) (hflt : b.filters jm c = .ok (psi, phi))
    (hG : c.Filters J true psi' phi') {e : ℝ} (he : 0 < e)
    (hd : ∀ l, 0 ≤ l → l < c.L → frameDist c.J_min J c.L psi psi' phi phi' l ≤ e ^ 2)
    (hf : (b.engine c).sphF f c.L = .ok flm) (hbl : BL2 c.L c.spin flm) :
    ∃ w s glm, b.analysisWith jm c (psi', phi') f = .ok (w, s) ∧
      b.synthesisWith jm c (psi', phi') w s = (b.engine c).sphI glm c.L ∧ glm.r = c.L ∧ glm.c = 2 * c.L - 1 ∧
      ∀ l m, ‖co2 glm l m - co2 flm l m‖ ≤ (1 / 1000 + 2001 / 1000 * e + e ^ 2) * ‖co2 flm l m‖ := by
  obtain ⟨w, s, glm, h1, h2, hr, hc, hco⟩ := C67_round_trip hw hb hG hf
  refine ⟨w, s, glm, h1, h2, hr, hc, fun l m => ?_⟩
  rw [hco]
  by_cases h0 : co2 flm l m = 0
  · rw [h0]; simp
  · have hl : 0 ≤ l ∧ l < c.L := by
      by_contra hcc
      exact h0 (flm.junk _ _ (by rw [hbl.r]; omega))
    have hs : |c.spin| ≤ l := by
      by_contra hcc
      exact h0 (hbl.zero l m (Or.inr (by omega)))
    have hlo : b.isLooped = false := by cases b <;> simp_all [Backend.isBase, Backend.isLooped]
    obtain ⟨k1, k2⟩ := C68_frame_sum hw.valid hflt hlo he hl.1 hl.2 hs (hd l hl.1 hl.2)
    have e1 : (frameSum c.J_min J c.L psi' phi' l : ℂ) * co2 flm l m - co2 flm l m =
        ((frameSum c.J_min J c.L psi' phi' l - 1 : ℝ) : ℂ) * co2 flm l m := by push_cast; ring
    rw [e1, norm_mul, Complex.norm_real, Real.norm_eq_abs]
    refine mul_le_mul_of_nonneg_right ?_ (norm_nonneg _)
    rw [abs_le]
    constructor <;> nlinarith

end

/-! ## Examples -/

theorem scale3_v (psi : Arr3 ℂ) (x : ℝ) (j l k : ℤ) : (psi.map fun z => (x : ℂ) * z).v j l k = x * psi.v j l k := by
  by_cases hr : 0 ≤ j ∧ j < psi.d ∧ 0 ≤ l ∧ l < psi.r ∧ 0 ≤ k ∧ k < psi.c
  · exact Arr3.of_v _ _ _ _ _ _ _ hr
  · rw [psi.junk _ _ _ hr, mul_zero]
    exact Arr3.of_out _ _ _ _ _ _ _ hr

theorem scale1_v (phi : Arr1 ℝ) (x : ℝ) (l : ℤ) : (phi.map fun z => x * z).v l = x * phi.v l := by
  by_cases hr : 0 ≤ l ∧ l < phi.n
  · exact Arr1.of_v _ _ _ hr
  · rw [phi.junk _ hr, mul_zero]
    exact Arr1.of_out _ _ _ hr

/-- filters scaled by a real factor still qualify -/
theorem Cfg.Filters.smul {c : Cfg} {J : ℤ} {psi : Arr3 ℂ} {phi : Arr1 ℝ} (h : c.Filters J true psi phi) (x : ℝ) :
    c.Filters J true (psi.map fun z => (x : ℂ) * z) (phi.map fun z => x * z) := by
  have h3 := scale3_v psi x
  have h1 := scale1_v phi x
  refine ⟨h.d, h.r, h.cols, h.n, fun j l n hne => h.wav j l n ?_, fun l hne => h.scal l ?_, fun hr j l n => ?_⟩
  · rw [h3] at hne
    exact right_ne_zero_of_mul hne
  · rw [h1] at hne
    exact right_ne_zero_of_mul hne
  · rw [h3, h3, h.sym hr j l n, map_mul, Complex.conj_ofReal]
    ring

/-- the JAX transforms with filters 1% too large: the hypotheses of C68 hold with `e = 0.02`, so every coefficient comes
back within 4.2% -/
example : ∃ psi' phi' w s glm, Backend.analysisWith j_max (.jax Toy.jax) (exCfg true 0) (psi', phi')
      (Toy.sphInv true exFlm 3) = .ok (w, s) ∧
    Backend.synthesisWith j_max (.jax Toy.jax) (exCfg true 0) (psi', phi') w s =
      ((Backend.jax Toy.jax).engine (exCfg true 0)).sphI glm 3 ∧
    ‖co2 glm 1 0 - 1‖ ≤ 42 / 1000 := by
  have hw := exCfg_works (b := .jax Toy.jax) (Or.inr (Or.inr (Or.inl rfl))) true 0
  obtain ⟨psi, phi, hflt⟩ := filters_exist hw.valid (.jax Toy.jax)
  have hG := filters_ok hw.valid hflt true
  obtain ⟨p, hp, hp'⟩ := hw.exact.sph 3 exFlm (by norm_num) exFlm_bl (fun _ => exFlm_herm)
  cases hp
  have hd : ∀ l, 0 ≤ l → l < (3 : ℤ) → frameDist 0 2 3 psi (psi.map fun z => ((101 / 100 : ℝ) : ℂ) * z) phi
      (phi.map fun z => 101 / 100 * z) l ≤ (2 / 100 : ℝ) ^ 2 := by
    intro l hl0 hl1
    have hb := (frameSum_bounds hw.valid hflt hl0 hl1 (by simpa [exCfg] using hl0)).1.2
    have hs : frameDist 0 2 3 psi (psi.map fun z => ((101 / 100 : ℝ) : ℂ) * z) phi (phi.map fun z => 101 / 100 * z) l =
        (1 / 100) ^ 2 * frameSum 0 2 3 psi phi l := by
      have h3 : ∀ j k, (psi.map fun z => ((101 / 100 : ℝ) : ℂ) * z).v j l k - psi.v j l k = ((1 / 100 : ℝ) : ℂ) * psi.v j l k := by
        intro j k
        rw [scale3_v]
        push_cast
        ring
      have h1 : (phi.map fun z => 101 / 100 * z).v l - phi.v l = 1 / 100 * phi.v l := by
        rw [scale1_v]
        ring
      unfold frameDist frameSum
      simp only [h3, h1, norm_mul, mul_pow, Complex.norm_real, Real.norm_eq_abs, sq_abs, ← Finset.mul_sum]
      ring
    rw [hs]
    have : frameSum 0 2 3 psi phi l ≤ 501 / 500 := hb
    nlinarith
  obtain ⟨w, s, glm, h1, h2, -, -, h3⟩ := C68_round_trip hw rfl hflt (hG.smul (101 / 100)) (e := 2 / 100) (by norm_num) hd
    hp' exFlm_bl
  refine ⟨_, _, w, s, glm, h1, h2, ?_⟩
  have := h3 1 0
  rw [exFlm_co] at this
  refine this.trans ?_
  norm_num

/-- scaling filters with arbitrary values (here 7) at the degrees cut away, which for `J_min = 0` is every degree but 0,
give the same analysis -/
example : ∃ psi phi phi', phi'.v 1 = 7 ∧ ∀ f, Backend.analysisWith j_max (.jax Toy.jax) (exCfg true 0) (psi, phi) f =
    Backend.analysisWith j_max (.jax Toy.jax) (exCfg true 0) (psi, phi') f := by
  have hw := exCfg_works (b := .jax Toy.jax) (Or.inr (Or.inr (Or.inl rfl))) true 0
  obtain ⟨psi, phi, hflt⟩ := filters_exist hw.valid (.jax Toy.jax)
  have hG := filters_ok hw.valid hflt true
  have hLs : (exCfg true 0).Ls true = 1 := by
    simp only [Cfg.Ls, scal_bandlimit, exCfg]
    norm_num
  refine ⟨psi, phi, Arr1.of 3 fun l => if l < 1 then phi.v l else 7, ?_, (C67_ignored hw.valid rfl hw.ready hw.std
    ⟨hG.shape.1, hG.shape.2, hG.shape.3, hG.shape.4⟩ ⟨hG.shape.1, hG.shape.2, hG.shape.3, rfl⟩
    ⟨fun _ _ _ _ _ _ _ _ _ => rfl, fun l h0 h1 => ?_⟩).1⟩
  · rw [Arr1.of_v _ _ _ (by norm_num)]
    norm_num
  · rw [hLs] at h1
    rw [Arr1.of_v _ _ _ (by omega), if_pos h1]

/-- the documented filters themselves qualify for C67, in a configuration without overshoot: exact reconstruction -/
example : ∃ psi phi, (exCfg true 0).Filters 2 true psi phi ∧
    ∀ l, 0 ≤ l → l < 3 → frameSum 0 2 3 psi phi l = 1 := by
  have hw := exCfg_works (b := .jax Toy.jax) (Or.inr (Or.inr (Or.inl rfl))) true 0
  obtain ⟨psi, phi, hflt⟩ := filters_exist hw.valid (.jax Toy.jax)
  obtain ⟨k, hk, hno⟩ := noOvershoot_3_2
  refine ⟨psi, phi, filters_ok hw.valid hflt true, fun l h0 h1 => ?_⟩
  have hA := dir_admissible hw.valid.top hw.valid.hN hk (J_min := 0) (spin := 0) (spin0 := 0) (psi := psi) (phi := phi)
  exact (hA.2.1 (filters_built hflt) hno l h0 h1 (by simpa using h0) (by simpa using h0)).trans (if_pos rfl)

end S2wav
