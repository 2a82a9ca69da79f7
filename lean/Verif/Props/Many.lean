import Verif.Props.Wrap

/-! # Any number of directions, all backends: C93

`C40` describes one routine, `base.analysis`, at scales with more directions than degrees.  Here all six pairs of routines
are covered, in both directions, for every `N ≥ 1`: which scales are processed, what a round trip does, exactly for which
`N` the vectorised routines reconstruct, and which calls with different `N` are the same. -/

namespace S2wav
open Classical

section
variable {jm : JMax} {c : Cfg} {J : ℤ} {psi : Arr3 ℂ} {phi : Arr1 ℝ}

/-- the scales a backend processes: all of them with explicit loops, those with at most `L` directions with array slices -/
def Backend.Kept (b : Backend) (c : Cfg) (j : ℤ) : Prop := b.isLooped = true ∨ c.Nj b.mr j ≤ c.L

/-- the filters of the processed scales -/
noncomputable def Backend.keptPsi (b : Backend) (c : Cfg) (psi : Arr3 ℂ) (j l n : ℤ) : ℂ :=
  if b.Kept c j then psi.v j l (c.L - 1 + n) else 0

theorem Backend.keptPsi_eq (b : Backend) (c : Cfg) (psi : Arr3 ℂ) (j l n : ℤ) :
    (b.cut c psi).v j l (c.L - 1 + n) = b.keptPsi c psi j l n := by
  rw [b.cut_v]
  unfold keptPsi Kept
  split_ifs <;> rfl

/-- what a backend needs, with any number of directions; without multiresolution the slices of more than `L + 2`
directions fail to broadcast -/
structure Backend.Runs (b : Backend) (jm : JMax) (c : Cfg) (J : ℤ) : Prop where
  core : c.Core jm J
  two : 2 ≤ c.L
  few : b.isLooped = false → b.mr = false → c.N ≤ c.L + 2
  ready : b.Ready jm c
  std : (b.engine c).Std c.reality
  exact : (b.engine c).Exact c.spin c.reality
  trip : b.RoundTrip c

theorem Backend.Runs.fits {b : Backend} (h : b.Runs jm c J) (hG : c.Filters J b.mr psi phi) : b.Fits c J psi := by
  rcases hb : b.isLooped
  · exact b.fits_core h.core h.two (h.few hb) hG
  · exact Or.inl hb

/-- **C93** the scales that are processed: all of them, unless `N > L` and, with multiresolution, `N - L` is odd; then the
scales of full band-limit are lost (without multiresolution, all scales are) -/
theorem C93_kept (hv : c.Core jm J) (b : Backend) (j : ℤ) :
    b.Kept c j ↔ b.isLooped = true ∨ c.N ≤ c.L ∨ (b.mr = true ∧ ((c.N - c.L) % 2 = 0 ∨ c.Lj true j < c.L)) := by
  unfold Backend.Kept
  refine or_congr_right ?_
  have hw := C40_when hv.top.hL hv.hN hv.top.hlam j
  have hb := (hv.Lj_pos true j).2.2.2
  unfold Cfg.Nj
  rcases hm : b.mr
  · rw [hw.2]; simp
  · have h1 := hw.1
    rw [← not_lt, h1]
    unfold Cfg.Lj at hb ⊢
    simp only [true_and]
    omega

/-- **C93** what analysis computes, for any number of directions: the coefficients of the formula at processed scales,
zero at the others -/
theorem C93_analysis (hv : c.Core jm J) (hL2 : 2 ≤ c.L) (b : Backend) (hNL : b.isLooped = false → b.mr = false → c.N ≤ c.L + 2)
    (hR : b.Ready jm c) (hE : (b.engine c).Std c.reality) (hflt : b.filters jm c = .ok (psi, phi)) (f : Px) :
    b.analysis jm c f = (do
      let flm ← (b.engine c).sphF f c.L
      let w ← (pyRange c.J_min (J + 1)).mapM fun j =>
        (b.engine c).wigI (wavCoeffs (c.Lj b.mr j) (c.Nj b.mr j) (b.keptPsi c psi j) flm)
          (c.Lj b.mr j) (c.Nj b.mr j) (c.L0 b.mr j)
      let s ← b.scalI c (scalCoeffs (c.Ls b.mr) phi.v flm)
      .ok (w, s)) := by
  have hG := filters_ok' hv hflt b.mr
  have hfit : b.Fits c J psi := by
    rcases hb : b.isLooped
    · exact b.fits_core hv hL2 (hNL hb) hG
    · exact Or.inl hb
  rw [b.analysis_eq_with hflt, b.analysisWith_formula' hv hR hE (fun _ => hflt) hG hfit f]
  have e : ∀ j, (fun l n => (b.cut c psi).v j l (c.L - 1 + n)) = b.keptPsi c psi j :=
    fun j => funext fun l => funext fun n => b.keptPsi_eq c psi j l n
  simp only [e]

/-- **C93** what synthesis computes: the scales that are not processed do not contribute -/
theorem C93_synthesis (hv : c.Core jm J) (hL2 : 2 ≤ c.L) (b : Backend) (hNL : b.isLooped = false → b.mr = false → c.N ≤ c.L + 2)
    (hR : b.Ready jm c) (hE : (b.engine c).Std c.reality) (hN : b.isLooped = true → c.reality = true → (b.engine c).NonnegOnly)
    (hflt : b.filters jm c = .ok (psi, phi)) (w : List Px) (s : Px) :
    b.synthesis jm c w s = (do
      let _ ← b.check jm c w s
      let S ← (b.engine c).sphF (b.fscal c s) (c.Ls b.mr)
      let W ← (pyRange c.J_min (J + 1)).mapM fun j => do
        let fw ← listGet w (j - c.J_min)
        (b.engine c).wigF fw (c.Lj b.mr j) (c.Nj b.mr j) (c.L0 b.mr j)
      (b.engine c).sphI (synCoeffs c.L c.J_min J (b.keptPsi c psi) phi.v
        (fun j => W.getD (j - c.J_min).toNat z3) S) c.L) := by
  have hG := filters_ok' hv hflt b.mr
  have hfit : b.Fits c J psi := by
    rcases hb : b.isLooped
    · exact b.fits_core hv hL2 (hNL hb) hG
    · exact Or.inl hb
  rw [b.synthesis_eq_with hflt, b.synthesisWith_formula' hv hR hE hN (fun _ => hflt) hG hfit]
  have e : (fun j l n => (b.cut c psi).v j l (c.L - 1 + n)) = b.keptPsi c psi :=
    funext fun j => funext fun l => funext fun n => b.keptPsi_eq c psi j l n
  simp only [e, List.getD_eq_getElem?_getD]
  rfl

theorem phi_high (hv : c.Core jm J) {b : Backend} (hflt : b.filters jm c = .ok (psi, phi)) {l : ℤ} (hl : c.lam ^ c.J_min ≤ (l : ℝ)) :
    phi.v l = 0 := by
  obtain ⟨_, _, hphi, -⟩ := dirBuilt_elim hv.top hv.hN (filters_built hflt)
  rw [hphi]
  by_cases h : 0 ≤ l ∧ l < c.L
  · rw [Arr1.of_v _ _ _ h, phiDir, phiAx_eq_zero hv.top.hlam hl]
    simp
  · exact Arr1.junk _ _ h

/-- **C93** synthesis after analysis multiplies degree `l` by a number `G l` between 0 and 1.002.  It is at least 1, and
exactly 1 when `k_lam` does not overshoot, if every scale containing degree `l` is processed; it is 0 if none is and `l` is
beyond the scaling function. -/
theorem C93_round_trip {b : Backend} (hb : b.Runs jm c J) {k : Arr2 ℝ} (hk : k_lam jm c.L c.lam 300 = .ok k)
    {f : Px} {flm : Arr2 ℂ} (hf : (b.engine c).sphF f c.L = .ok flm) :
    ∃ w s glm, ∃ G : ℤ → ℝ, b.analysis jm c f = .ok (w, s) ∧ b.synthesis jm c w s = (b.engine c).sphI glm c.L ∧
      glm.r = c.L ∧ glm.c = 2 * c.L - 1 ∧ (∀ l m, co2 glm l m = G l * co2 flm l m) ∧
      (∀ l, 0 ≤ l → l < c.L → |c.spin| ≤ l → 0 ≤ G l ∧ G l ≤ 501 / 500 ∧
        ((∀ j, c.J_min ≤ j → j ≤ J → c.L0 b.mr j ≤ l → l < c.Lj b.mr j → b.Kept c j) →
          1 ≤ G l ∧ (NoOvershoot k → G l = 1)) ∧
        (c.lam ^ c.J_min ≤ (l : ℝ) →
          (∀ j, c.J_min ≤ j → j ≤ J → c.L0 b.mr j ≤ l → l < c.Lj b.mr j → ¬ b.Kept c j) → G l = 0)) ∧
      ∀ l, l < |c.spin| → G l = 0 := by
  have hv := hb.core
  obtain ⟨psi, phi, hflt⟩ := filters_exist' hv b
  have hG := filters_ok' hv hflt b.mr
  have hfit := hb.fits hG
  obtain ⟨w, s, h, hran⟩ := b.analysisWith_run' hv hb.ready hb.std hb.exact hb.trip (fun _ => hflt) hG hfit hf
  have hbl := (hb.std.sph f c.L flm hf).1
  have hA := dir_admissible hv.top hv.hN hk (J_min := c.J_min) (spin := c.spin) (spin0 := 0) (psi := psi) (phi := phi)
  have hcut : ∀ j l i, (b.cut c psi).v j l i = if b.Kept c j then psi.v j l i else 0 := by
    intro j l i
    rw [b.cut_v]
    unfold Backend.Kept
    split_ifs <;> rfl
  refine ⟨w, s, _, _, (b.analysis_eq_with hflt f).trans h, (b.synthesis_eq_with hflt w s).trans
    (b.synthesisWith_run' hv hb.ready hb.std hb.trip (fun _ => hflt) hG hfit hf hran), hbl.r, hbl.c,
    fun l m => degMul_co _ _ _ _, fun l hl0 hl1 hs => ?_, fun l hl => ?_⟩
  · have hpos : (0 : ℝ) < 2 * l + 1 := by
      have : (0 : ℝ) ≤ l := by exact_mod_cast hl0
      linarith
    have hpi := Real.pi_pos
    have hle : frameSum c.J_min J c.L (b.cut c psi) phi l ≤ frameSum c.J_min J c.L psi phi l := by
      unfold frameSum
      refine add_le_add_right (mul_le_mul_of_nonneg_left (Finset.sum_le_sum fun j _ => Finset.sum_le_sum fun i _ => ?_)
        (by positivity)) _
      rw [hcut]
      split_ifs
      · exact le_rfl
      · simp
    have hbd := (frameSum_bounds' hv hflt hl0 hl1 hs).1
    refine ⟨?_, hle.trans hbd.2, fun hkept => ?_, fun hl hnone => ?_⟩
    · unfold frameSum
      have : 0 ≤ ∑ j ∈ Finset.Icc c.J_min J, ∑ k ∈ Finset.Ico 0 (2 * c.L - 1), ‖(b.cut c psi).v j l k‖ ^ 2 :=
        Finset.sum_nonneg fun j _ => Finset.sum_nonneg fun i _ => by positivity
      positivity
    · have e : frameSum c.J_min J c.L (b.cut c psi) phi l = frameSum c.J_min J c.L psi phi l := by
        unfold frameSum
        refine congrArg (_ + _ * ·) (Finset.sum_congr rfl fun j hj => Finset.sum_congr rfl fun i _ => ?_)
        rw [Finset.mem_Icc] at hj
        beta_reduce
        rw [hcut]
        split_ifs with hkj
        · rfl
        · by_cases hz : psi.v j l i = 0
          · rw [hz]
          · exfalso
            have := hG.wav j l (i - (c.L - 1)) (by rwa [show c.L - 1 + (i - (c.L - 1)) = i by ring])
            exact hkj (hkept j hj.1 hj.2 this.1 this.2.1)
      rw [e]
      exact ⟨hbd.1, fun hno =>
        (hA.2.1 (filters_built hflt) hno l hl0 hl1 hs (by simpa using hl0)).trans (if_pos rfl)⟩
    · unfold frameSum
      rw [phi_high hv hflt hl, Finset.sum_eq_zero fun j hj => Finset.sum_eq_zero fun i _ => ?_]
      · simp
      · rw [Finset.mem_Icc] at hj
        beta_reduce
        rw [hcut]
        split_ifs with hkj
        · by_cases hz : psi.v j l i = 0
          · rw [hz]; simp
          · exfalso
            have := hG.wav j l (i - (c.L - 1)) (by rwa [show c.L - 1 + (i - (c.L - 1)) = i by ring])
            exact hnone j hj.1 hj.2 this.1 this.2.1 hkj
        · simp
  · have hz : ∀ j i, psi.v j l i = 0 := by
      intro j i
      by_contra hz
      have := hG.wav j l (i - (c.L - 1)) (by rwa [show c.L - 1 + (i - (c.L - 1)) = i by ring])
      omega
    have hz' : phi.v l = 0 := by
      by_contra hz
      have := hG.scal l hz
      omega
    unfold frameSum
    simp [hcut, hz, hz']

/-- **C93** exact reconstruction whenever every scale is processed: by the routines with explicit loops for every `N ≥ 1`, by
the others for `N ≤ L` and, with multiresolution, for every `N` with the parity of `L` -/
theorem C93_reconstruction {b : Backend} (hb : b.Runs jm c J)
    (hN : b.isLooped = true ∨ c.N ≤ c.L ∨ (b.mr = true ∧ (c.N - c.L) % 2 = 0)) {k : Arr2 ℝ}
    (hk : k_lam jm c.L c.lam 300 = .ok k) (hno : NoOvershoot k) {f : Px} {flm : Arr2 ℂ} (hbl : BL2 c.L c.spin flm)
    (hh : c.reality = true → Herm2 flm) (hf : (b.engine c).sphI flm c.L = .ok f) :
    ∃ w s, b.analysis jm c f = .ok (w, s) ∧ b.synthesis jm c w s = .ok f := by
  obtain ⟨p, hp, hp'⟩ := hb.exact.sph c.L flm hb.core.top.hL hbl hh
  rw [hf] at hp; cases hp
  obtain ⟨w, s, glm, G, h1, h2, h3, h4, h5, h6, -⟩ := C93_round_trip hb hk hp'
  refine ⟨w, s, h1, ?_⟩
  have : glm = flm := by
    refine Arr2.ext_co (h3.trans hbl.r.symm) (h4.trans hbl.c.symm) fun l m => ?_
    rw [h5]
    by_cases hz : co2 flm l m = 0
    · rw [hz, mul_zero]
    · have h0 : 0 ≤ l ∧ l < c.L ∧ |c.spin| ≤ l := by
        refine ⟨?_, ?_, ?_⟩
        · by_contra hc
          exact hz (flm.junk _ _ (by omega))
        · by_contra hc
          exact hz (flm.junk _ _ (by rw [hbl.r]; omega))
        · by_contra hc
          exact hz (hbl.zero l m (Or.inr (by omega)))
      rw [((h6 l h0.1 h0.2.1 h0.2.2).2.2.1 fun j _ _ _ _ => (C93_kept hb.core b j).2 ?_).2 hno]
      · simp
      · tauto
  rw [h2, this, hf]

/-- the signal with a single coefficient, of degree `L - 1` and order 0 -/
noncomputable def topFlm (L : ℤ) : Arr2 ℂ := Arr2.of L (2 * L - 1) fun l i => if l = L - 1 ∧ i = L - 1 then 1 else 0

theorem topFlm_co {L : ℤ} (hL : 1 ≤ L) (l m : ℤ) : co2 (topFlm L) l m = if l = L - 1 ∧ m = 0 then 1 else 0 := by
  show (Arr2.of L (2 * L - 1) _).v l (L - 1 + m) = _
  by_cases h : 0 ≤ l ∧ l < L ∧ 0 ≤ L - 1 + m ∧ L - 1 + m < 2 * L - 1
  · rw [Arr2.of_v _ _ _ _ _ h]
    by_cases h' : l = L - 1 ∧ m = 0
    · rw [if_pos h', if_pos (by omega)]
    · rw [if_neg h', if_neg (by omega)]
  · rw [Arr2.junk _ _ _ h, if_neg (by omega)]

theorem topFlm_bl {L spin : ℤ} (hL : 1 ≤ L) (hs : |spin| ≤ L - 1) : BL2 L spin (topFlm L) := by
  refine ⟨rfl, rfl, fun l m h => ?_⟩
  rw [topFlm_co hL, if_neg]
  rintro ⟨rfl, rfl⟩
  rw [abs_zero] at h
  omega

theorem topFlm_herm {L : ℤ} (hL : 1 ≤ L) : Herm2 (topFlm L) := by
  intro l m
  rw [topFlm_co hL, topFlm_co hL]
  by_cases h : l = L - 1 ∧ m = 0
  · rw [if_pos h, if_pos (by omega), h.2]; simp
  · rw [if_neg h, if_neg (by omega)]; simp

/-- **C93** the vectorised routines reconstruct every band-limited signal exactly when `N ≤ L` or, with multiresolution,
`N - L` is even.  Otherwise they run without an error and lose (at least) degree `L - 1`. -/
theorem C93_iff {b : Backend} (hb : b.Runs jm c J) (hl : b.isLooped = false) (hs : |c.spin| ≤ c.L - 1)
    (hJm : c.lam ^ c.J_min ≤ (c.L - 1 : ℝ)) {k : Arr2 ℝ} (hk : k_lam jm c.L c.lam 300 = .ok k) (hno : NoOvershoot k) :
    (∀ f flm, BL2 c.L c.spin flm → (c.reality = true → Herm2 flm) → (b.engine c).sphI flm c.L = .ok f →
      ∃ w s, b.analysis jm c f = .ok (w, s) ∧ b.synthesis jm c w s = .ok f) ↔
    c.N ≤ c.L ∨ (b.mr = true ∧ (c.N - c.L) % 2 = 0) := by
  refine ⟨fun h => ?_, fun hN f flm hbl hh hf => C93_reconstruction hb (Or.inr hN) hk hno hbl hh hf⟩
  by_contra hN
  have hL := hb.core.top.hL
  obtain ⟨f, hf, hf'⟩ := hb.exact.sph c.L (topFlm c.L) hL (topFlm_bl hL hs) (fun _ => topFlm_herm hL)
  obtain ⟨w, s, hw, hw'⟩ := h f _ (topFlm_bl hL hs) (fun _ => topFlm_herm hL) hf
  obtain ⟨w1, s1, glm, G, h1, h2, h3, h4, h5, h6, h7⟩ := C93_round_trip hb hk hf'
  rw [hw] at h1
  cases h1
  have hG : G (c.L - 1) = 0 := by
    refine (h6 (c.L - 1) (by omega) (by omega) hs).2.2.2 (by push_cast; exact hJm) fun j _ _ _ hj hkj => hN ?_
    rcases (C93_kept hb.core b j).1 hkj with h | h | ⟨hm, h | h⟩
    · rw [hl] at h; cases h
    · exact Or.inl h
    · exact Or.inr ⟨hm, h⟩
    · rw [hm] at hj; omega
  have hz : ∀ l m, co2 glm l m = 0 := by
    intro l m
    rw [h5, topFlm_co hL]
    split_ifs with h
    · rw [h.1, hG]; simp
    · simp
  have hbl : BL2 c.L c.spin glm := ⟨h3, h4, fun l m _ => hz l m⟩
  obtain ⟨p, hp, hp'⟩ := hb.exact.sph c.L glm hL hbl (fun _ l m => by rw [hz, hz]; simp)
  rw [hw', hp] at h2
  cases h2
  rw [hf'] at hp'
  have := congrArg (co2 · (c.L - 1) 0) (Except.ok.inj hp')
  simp only [hz, topFlm_co hL] at this
  simp at this

/-! ## Calls with different numbers of directions that are the same -/

section
variable {L N N' : ℤ} {lam : ℝ}

theorem LN_same (h : L ≤ N) (h' : L ≤ N') (hp : (N - N') % 2 = 0) (hlam : 1 < lam) (hL : 1 ≤ L) (j : ℤ) :
    LN_j L j N' lam true = LN_j L j N lam true := by
  have h1 := LN_j_Lj_bounds (N := N) hL hlam j true
  have e : ∀ M, (LN_j L j M lam true) = ((LN_j L j N lam true).1,
      min M (LN_j L j N lam true).1 + (min M (LN_j L j N lam true).1 + M) % 2, (LN_j L j N lam true).2.2) := fun M => rfl
  rw [e N', e N]
  refine Prod.ext rfl (Prod.ext ?_ rfl)
  dsimp only
  rw [min_eq_right (by omega), min_eq_right (by omega)]
  omega

theorem tiling_same (h : L ≤ N) (h' : L ≤ N') (hp : (N - N') % 2 = 0) : tiling_direction L N' = tiling_direction L N := by
  unfold tiling_direction
  rw [show N' % 2 = N % 2 by omega]
  refine Py.bind_congr fun s _ => ?_
  refine foldlM_congr' (fun s el hel => ?_) _
  rw [mem_pyRange] at hel
  have e : (if (N' + el) % 2 ≠ 0 then min (N' - 1) el else min (N' - 1) (el - 1)) =
      if (N + el) % 2 ≠ 0 then min (N - 1) el else min (N - 1) (el - 1) := by
    rw [min_eq_right (by omega), min_eq_right (by omega), min_eq_right (by omega), min_eq_right (by omega),
      show (N' + el) % 2 = (N + el) % 2 by omega]
  rw [e]
  refine foldlM_congr' (fun s m hm => ?_) _
  rw [mem_pyRange] at hm
  have hiff : (|m| < N' ∧ (N' + m) % 2 ≠ 0) ↔ (|m| < N ∧ (N + m) % 2 ≠ 0) := by
    have : |m| < L := by rw [abs_lt]; omega
    omega
  simp only [hiff]

/-- **C93** from `N = L` on, the filters only depend on the parity of the number of directions -/
theorem C93_filters (jm : JMax) (h : L ≤ N) (h' : L ≤ N') (hp : (N - N') % 2 = 0) (J_min spin spin0 : ℤ) :
    filters_directional jm L N' J_min lam spin spin0 = filters_directional jm L N J_min lam spin spin0 ∧
    filters_directional_vectorised jm L N' J_min lam spin spin0 = filters_directional_vectorised jm L N J_min lam spin spin0 := by
  unfold filters_directional filters_directional_vectorised
  rw [tiling_same h h' hp]
  exact ⟨rfl, rfl⟩

end

/-- **C93** with multiresolution and at least `L` directions, every call only depends on the parity of the number of
directions: asking for more directions changes nothing, neither the results nor the shapes.  (`base.analysis` allocates
buffers for the number of directions it was asked for; both allocations have to succeed.) -/
theorem C93_same (hv : c.Core jm J) {b : Backend} (hm : b.mr = true) {N' : ℤ} (h : c.L ≤ c.N) (h' : c.L ≤ N')
    (hp : (c.N - N') % 2 = 0) (hB : b.isBase = true → b.isLooped = false →
      2 ≤ c.L ∧ (b.engine c).Std c.reality ∧ b.Ready jm c ∧ b.Ready jm { c with N := N' }) (f : Px) (w : List Px) (s : Px) :
    b.analysis jm { c with N := N' } f = b.analysis jm c f ∧
    b.synthesis jm { c with N := N' } w s = b.synthesis jm c w s := by
  have hLN := LN_same h h' hp hv.top.hlam hv.top.hL
  have hF := C93_filters (lam := c.lam) jm h h' hp c.J_min c.spin 0
  constructor
  · by_cases hb : ∃ E mr, b = .base E mr
    · obtain ⟨E, mr, rfl⟩ := hb
      have hv' : ({ c with N := N' } : Cfg).Core jm J := ⟨hv.top, hv.top.hL.trans h', hv.h0, hv.h1⟩
      obtain ⟨psi, phi, hflt⟩ := filters_exist' hv (.base E mr)
      obtain ⟨hL2, hE, hR, hR'⟩ := hB rfl rfl
      have hflt' : (Backend.base E mr).filters jm { c with N := N' } = .ok (psi, phi) := hF.2.trans hflt
      have hmr : mr = true := hm
      subst hmr
      rw [C93_analysis hv hL2 (.base E true) (fun _ => nofun) hR hE hflt f,
        C93_analysis hv' hL2 (.base E true) (fun _ => nofun) hR' hE hflt' f]
      have hK : (Backend.base E true).keptPsi { c with N := N' } psi = (Backend.base E true).keptPsi c psi := by
        funext j l n
        unfold Backend.keptPsi
        have hi : (Backend.base E true).Kept { c with N := N' } j ↔ (Backend.base E true).Kept c j := by
          unfold Backend.Kept Cfg.Nj
          simp only [Backend.mr, hLN]
        by_cases hj : (Backend.base E true).Kept c j
        · rw [if_pos hj, if_pos (hi.2 hj)]
        · rw [if_neg hj, if_neg (fun h => hj (hi.1 h))]
      rw [hK]
      unfold Cfg.Lj Cfg.Nj Cfg.L0
      simp only [Backend.mr, hLN]
      rfl
    · cases b
      case base E mr => exact absurd ⟨E, mr, rfl⟩ hb
      case looped E mr =>
        have hmr : mr = true := hm
        subst hmr
        simp only [Backend.analysis, Base.analysis_looped, construct_flmn, zerosWavJ, flmn_wav_j, construct_f, f_wav_j, hLN, hF.1]
      all_goals
        simp only [Backend.analysis, Construct.generate_wigner_precomputes, Construct.generate_full_precomputes, Jax.analysis,
          C.analysis, C.generate_and_apply_wavelets, Pre.analysis, Torch.analysis, construct_flmn_jax, construct_flmn_torch,
          zerosWavJ, flmn_wav_j, hLN, hF.2]
  · cases b
    case base E mr =>
      have hmr : mr = true := hm
      subst hmr
      simp only [Backend.synthesis, Base.synthesis, wavelet_shape_check, n_wav_scales, f_wav_j, hLN, hF.2]
    case looped E mr =>
      have hmr : mr = true := hm
      subst hmr
      simp only [Backend.synthesis, Base.synthesis_looped, wavelet_shape_check, n_wav_scales, f_wav_j, hLN, hF.1]
    all_goals
      simp only [Backend.synthesis, Construct.generate_wigner_precomputes, Construct.generate_full_precomputes, Jax.synthesis,
        C.synthesis, C.sum_over_wavelet_and_scaling, Pre.synthesis, Torch.synthesis, hLN, hF.2]

/-- **C93** without multiresolution and with three or more directions too many, `base.synthesis` fails on all inputs, as
`base.analysis` does (C40) -/
theorem C93_too_many {L N J_min : ℤ} {lam : ℝ} {spin : ℤ} {sampling : String} {nside : Option ℤ} {reality : Bool}
    (hT : TopScale jm L lam J) (hL2 : 2 ≤ L) (hNL : L + 3 ≤ N) (h1 : J_min < J) (h0 : 0 ≤ J_min) {E : BaseFFT}
    (hw : ∀ p L N L0 t, E.wigForward p L N L0 sampling reality nside = .ok t → BL3 L N 0 t)
    (w : List Px) (s p : Px) :
    Base.synthesis jm E w s L N J_min lam spin 0 sampling nside reality false ≠ .ok p := by
  intro h
  have hN : 1 ≤ N := by omega
  unfold Base.synthesis at h
  obtain ⟨_, -, h⟩ := Py.bind_eq_ok.1 h
  simp only [hT.hJ, Py.bind_ok, zeros2_ok hT.hL] at h
  obtain ⟨S, -, h⟩ := Py.bind_eq_ok.1 h
  obtain ⟨⟨psi, phi⟩, hflt, h⟩ := Py.bind_eq_ok.1 h
  dsimp only at h
  obtain ⟨hd, hr, hc, -⟩ := dir_shape hT hN (Or.inr (Or.inl hflt))
  obtain ⟨flm, hst, -⟩ := Py.bind_eq_ok.1 h
  rw [pyRange_cons (show J_min < J + 1 by omega), List.foldlM_cons] at hst
  obtain ⟨st1, hst, -⟩ := Py.bind_eq_ok.1 hst
  have hLN : LN_j L J_min N lam false = (L, N, 0) := by simp [LN_j, wav_j_bandlimit]
  simp only [hLN] at hst
  obtain ⟨fw, -, hst⟩ := Py.bind_eq_ok.1 hst
  obtain ⟨t, ht, hst⟩ := Py.bind_eq_ok.1 hst
  have hbl := hw _ _ _ _ _ ht
  rw [sliceAt_ok _ (by omega) (by omega), Py.bind_ok] at hst
  obtain ⟨e, he, -⟩ := Py.bind_eq_ok.1 hst
  unfold einsum_ln_nlm at he
  obtain ⟨_, -, he⟩ := Py.bind_eq_ok.1 he
  obtain ⟨x, hx, -⟩ := Py.bind_eq_ok.1 he
  unfold Arr3.slice at hx
  simp only [Arr3.of_d, Arr2.of_c] at hx
  rw [mkSl_all2 hbl.d hN, mkSl_wrap hL2 hc (by omega)] at hx
  unfold bdim at hx
  dsimp only at hx
  rw [if_neg (by omega), if_neg (by omega), if_neg (by omega)] at hx
  cases hx

end

/-- the configuration of the examples with another number of directions -/
noncomputable def exMany (N : ℤ) : Cfg := { exCfg true 0 with N := N }

theorem exMany_core {N : ℤ} (hN : 1 ≤ N) : (exMany N).Core j_max 2 :=
  ⟨(exCfg_valid true 0).top, hN, le_rfl, by norm_num [exMany, exCfg]⟩

theorem exMany_runs {N : ℤ} (hN : 1 ≤ N) {b : Backend} (hb : Toy.IsToy b) (hm : b.mr = true) : b.Runs j_max (exMany N) 2 := by
  have hg := Toy.good' (exMany_core hN) rfl hb
  refine ⟨exMany_core hN, by norm_num [exMany, exCfg], fun _ h => ?_, hg.ready, hg.std, hg.exact, hg.trip⟩
  rw [hm] at h
  cases h

/-- `L = 3`: with 4 directions every vectorised routine loses part of some signal, with 5 or 101 none does; the looped
routines reconstruct in all cases, and 101 directions give the same results as 5 -/
example {b : Backend} (hb : Toy.IsToy b) (hm : b.mr = true) (hl : b.isLooped = false) :
    (∃ f flm, BL2 3 0 flm ∧ (b.engine (exMany 4)).sphI flm 3 = .ok f ∧
      ∀ w s, b.analysis j_max (exMany 4) f = .ok (w, s) → b.synthesis j_max (exMany 4) w s ≠ .ok f) ∧
    (∀ f flm, BL2 3 0 flm → Herm2 flm → (b.engine (exMany 5)).sphI flm 3 = .ok f →
      ∃ w s, b.analysis j_max (exMany 5) f = .ok (w, s) ∧ b.synthesis j_max (exMany 5) w s = .ok f) ∧
    (∀ mr f flm, BL2 3 0 flm → Herm2 flm → ((Backend.looped Toy.base mr).engine (exMany 4)).sphI flm 3 = .ok f →
      ∃ w s, (Backend.looped Toy.base mr).analysis j_max (exMany 4) f = .ok (w, s) ∧
        (Backend.looped Toy.base mr).synthesis j_max (exMany 4) w s = .ok f) ∧
    ∀ f, b.analysis j_max (exMany 101) f = b.analysis j_max (exMany 5) f := by
  obtain ⟨k, hk, hno⟩ := noOvershoot_3_2
  have hk' : ∀ N, k_lam j_max (exMany N).L (exMany N).lam 300 = .ok k := fun N => hk
  have hJm : ∀ N, (exMany N).lam ^ (exMany N).J_min ≤ ((exMany N).L - 1 : ℝ) := by
    intro N
    norm_num [exMany, exCfg]
  have hs : ∀ N, |(exMany N).spin| ≤ (exMany N).L - 1 := by intro N; norm_num [exMany, exCfg]
  refine ⟨?_, ?_, ?_, fun f => ?_⟩
  · have h4 := (C93_iff (exMany_runs (N := 4) (by norm_num) hb hm) hl (hs 4) (hJm 4) (hk' 4) hno).not.2 (by
      norm_num [exMany, exCfg])
    push Not at h4
    obtain ⟨f, flm, h1, -, h3, h4⟩ := h4
    exact ⟨f, flm, h1, h3, h4⟩
  · have h5 := (C93_iff (exMany_runs (N := 5) (by norm_num) hb hm) hl (hs 5) (hJm 5) (hk' 5) hno).2 (Or.inr ⟨hm, by
      norm_num [exMany, exCfg]⟩)
    exact fun f flm h1 h2 h3 => h5 f flm h1 (fun _ => h2) h3
  · intro mr f flm h1 h2 h3
    have hg := Toy.good' (exMany_core (N := 4) (by norm_num)) rfl (Or.inr (Or.inl ⟨mr, rfl⟩))
    exact C93_reconstruction (b := .looped Toy.base mr) ⟨exMany_core (by norm_num), by norm_num [exMany, exCfg], nofun, hg.ready, hg.std,
      hg.exact, hg.trip⟩ (Or.inl rfl) (hk' 4) hno h1 (fun _ => h2) h3
  · exact (C93_same (exMany_core (N := 5) (by norm_num)) hm (by norm_num [exMany, exCfg]) (N' := 101) (by norm_num [exMany, exCfg])
      (by norm_num [exMany]) (fun _ _ => ⟨by norm_num [exMany, exCfg], (exMany_runs (N := 5) (by norm_num) hb hm).std,
        (exMany_runs (N := 5) (by norm_num) hb hm).ready, (exMany_runs (N := 101) (by norm_num) hb hm).ready⟩) f [] f).1

end S2wav
