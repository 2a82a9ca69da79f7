import Verif.Props.Use
import Verif.Sphere.Engine
import Verif.Props.Dyadic

/-! # The transforms on the sphere

With the spherical harmonic and Wigner transforms of `Sphere/Engine.lean` nothing is assumed about s2fft: signals are
functions `f(θ, φ)`, images are their samples. -/

namespace S2wav
open Classical Sphere

variable {jm : JMax} {c : Cfg} {J : ℤ} {b : Backend} {f s : Px} {w : List Px} {psi : Arr3 ℂ} {phi : Arr1 ℝ}

/-- an image holds the samples of a function on the sphere -/
def Samples (g : Grid) (F : ℝ → ℝ → ℂ) (p : Px) : Prop :=
  p.shape = [g.nθ, g.nφ] ∧ ∀ t ∈ Finset.Ico 0 g.nθ, ∀ x ∈ Finset.Ico 0 g.nφ, p.v [t, x] = F (g.θ t) (node g.nφ x)

/-- an image holds the samples of a function of the Euler angles `α, β, γ` -/
def Samples3 (g : Grid) (N : ℤ) (F : ℝ → ℝ → ℝ → ℂ) (p : Px) : Prop :=
  p.shape = [2 * N - 1, g.nθ, g.nφ] ∧ ∀ y ∈ Finset.Ico 0 (2 * N - 1), ∀ t ∈ Finset.Ico 0 g.nθ, ∀ x ∈ Finset.Ico 0 g.nφ,
    p.v [y, t, x] = F (node g.nφ x) (g.θ t) (node (2 * N - 1) y)

/-- the coefficients of a real signal -/
def HermF (a : ℤ → ℤ → ℂ) : Prop := ∀ l m, a l (-m) = (-1 : ℂ) ^ m * (starRingEnd ℂ) (a l m)

/-- samplings on which the transforms are set up: `mw` and `gl` for all routines, `mwss` and `dh` for those of `base.py` (the others
return a scaling map of one sample when `Ls = 1`, see C44) -/
def SamplingOk (b : Backend) (c : Cfg) : Prop :=
  (c.sampling.toLower = "mw" ∨ c.sampling.toLower = "gl") ∨ b.isBase = true ∧ (c.sampling.toLower = "mwss" ∨ c.sampling.toLower = "dh")

theorem gridOf_sampled {sampling : String} (h : sampling.toLower = "mw" ∨ sampling.toLower = "mwss" ∨ sampling.toLower = "dh" ∨
    sampling.toLower = "gl") :
    Sampled (gridOf sampling) := by
  intro L hL
  unfold gridOf
  rcases h with h | h | h | h <;> rw [h]
  · exact ⟨_, rfl, gridIx_enough (k := 0) hL rfl⟩
  · exact ⟨_, rfl, gridIx_enough (k := 1) hL rfl⟩
  · exact ⟨_, rfl, gridIx_enough (k := 2) hL rfl⟩
  · exact ⟨_, rfl, gridIx_enough (k := 3) hL rfl⟩

theorem SamplingOk.sampled (hs : SamplingOk b c) : Sampled (gridOf c.sampling) := by
  refine gridOf_sampled ?_
  rcases hs with (h | h) | ⟨-, h | h⟩
  · exact Or.inl h
  · exact Or.inr (Or.inr (Or.inr h))
  · exact Or.inr (Or.inl h)
  · exact Or.inr (Or.inr (Or.inl h))

theorem gridOf_pos {G : ℤ → Py Grid} (hG : Sampled G) {L : ℤ} (hL : 1 ≤ L) {g : Grid} (h : G L = .ok g) : 0 < g.nθ ∧ 0 < g.nφ := by
  obtain ⟨g', h', hE⟩ := hG L hL
  rw [h] at h'; cases h'
  have := hE.all
  have := hE.phi
  omega

theorem construct_f_sphere (hv : c.Valid jm J) (hG : Sampled (gridOf c.sampling)) (nside : Option ℤ) (mr : Bool) :
    ∃ al, construct_f jm Sphere.shapes c.L c.N c.J_min c.lam c.sampling nside mr = .ok al := by
  unfold construct_f
  rw [hv.top.hJ, Py.bind_ok]
  refine mapM_all_ok fun j _ _ => ?_
  have hb := hv.Lj_pos mr j
  obtain ⟨g, hg, hE⟩ := hG _ hb.1
  have hp := gridOf_pos hG hb.1 hg
  have : f_wav_j Sphere.shapes c.L j c.N c.lam c.sampling nside mr = .ok [2 * c.Nj mr j - 1, g.nθ, g.nφ] := by
    show Sphere.shapes.so3 (c.Lj mr j) (c.Nj mr j) c.sampling nside = _
    exact bind_to hg
  rw [this, Py.bind_ok]
  unfold Px.zeros
  have h1 : ¬ (2 * c.Nj mr j - 1 < 0) := by omega
  have h2 : ¬ (g.nθ < 0) := by omega
  have h3 : ¬ (g.nφ < 0) := by omega
  simp [h1, h2, h3]

/-- **C81** with spherical harmonic and Wigner transforms as defined, on their sampling grids, every contract asked of s2fft
holds: for all six backends, every admissible configuration and every spin (spin 0 for real signals) -/
theorem C81_works (hb : IsSphere b) (hv : c.Valid jm J) (hr : c.reality = true → c.spin = 0) (hs : SamplingOk b c) :
    b.Works jm c J ∧ (b.engine c).Linear c.reality ∧ (c.reality = true → (b.engine c).NonnegOnly) := by
  have hG := hs.sampled
  have hr' : c.reality = true → spinOf b c = 0 := fun h => spinOf_zero (hr h)
  have hn : c.reality = true → (engine (gridOf c.sampling) (spinOf b c) c.reality).NonnegOnly := by
    intro h; rw [h]; exact engine_nonneg
  have hstd : (b.engine c).Std c.reality := by rw [engine_eq hb]; exact engine_std
  have hex : (b.engine c).Exact c.spin c.reality := by rw [engine_eq hb]; exact engine_exact hG (abs_spinOf b c) hr'
  have hdc : b.isBase = false → (b.engine c).Dc c.spin c.reality := by
    intro hbf
    rw [engine_eq hb]
    refine engine_dc hG (abs_spinOf b c) hr' fun g hg => ?_
    have hmw : c.sampling.toLower = "mw" ∨ c.sampling.toLower = "gl" := by
      rcases hs with h | h
      · exact h
      · rw [hbf] at h; exact absurd h.1 (by simp)
    unfold gridOf at hg
    rcases hmw with hmw | hmw <;> rw [hmw] at hg <;> cases hg <;> exact ⟨rfl, rfl⟩
  have hsm : ShapesMatch Sphere.base c := by
    constructor
    · intro a L p h
      obtain ⟨g, hg, h⟩ := bind_of h
      cases h
      exact bind_to hg
    · intro t L N L0 p h
      obtain ⟨g, hg, h⟩ := bind_of h
      cases h
      exact bind_to hg
  refine ⟨?_, by rw [engine_eq hb]; exact engine_linear, fun h => by rw [engine_eq hb]; exact hn h⟩
  have hb' := hb
  rcases hb' with ⟨mr, rfl⟩ | ⟨mr, rfl⟩ | rfl | rfl | rfl | rfl
  · exact ⟨hv, construct_f_sphere hv hG _ _, hstd, hex, hsm⟩
  · exact ⟨hv, construct_f_sphere hv hG _ _, hstd, hex, hsm, hn⟩
  · refine ⟨hv, fun forward => ?_, hstd, hex, hdc rfl⟩
    unfold Construct.generate_wigner_precomputes
    rw [hv.top.hJ, Py.bind_ok]
    exact mapM_all_ok fun j _ _ => ⟨(), rfl⟩
  · have hmw : c.sampling.toLower = "mw" ∨ c.sampling.toLower = "gl" := by
      rcases hs with h | h
      · exact h
      · exact absurd h.1 (by simp [Backend.isBase])
    refine ⟨hv, ?_, hstd, hex, hdc rfl, fun h a L p hp => ?_⟩
    · rcases hmw with h | h
      · exact ⟨by rw [h]; decide, 0, by rw [h]; rfl⟩
      · exact ⟨by rw [h]; decide, 3, by rw [h]; rfl⟩
    have e := engine_eq hb c
    rw [show cEngine ssht c = (Backend.ssht ssht).engine c from rfl, e, hr' h, h] at hp
    obtain ⟨g, hg, hp⟩ := bind_of hp
    cases hp
    exact sphInv_re a
  all_goals
  · refine ⟨hv, fun forward => ?_, hstd, hex, hdc rfl⟩
    unfold Construct.generate_full_precomputes
    rw [hv.top.hJ, Py.bind_ok]
    obtain ⟨l, hl⟩ := mapM_all_ok (a := c.J_min) (b := J) (m := fun j => do
      let p := LN_j c.L j c.N c.lam true
      Sphere.pre.wigKernel p.1 p.2.1 c.reality c.sampling c.nside forward) fun j _ _ => ⟨(), rfl⟩
    refine ⟨(some 0, some 0, l), ?_⟩
    refine Eq.trans (congrArg (fun x => x >>= _) hl) rfl

/-! ## Signals -/

/-- the coefficients of a signal, as an array -/
noncomputable def toArr (s L : ℤ) (a : ℤ → ℤ → ℂ) : Arr2 ℂ :=
  Arr2.of L (2 * L - 1) fun l i => if max |i - (L - 1)| |s| ≤ l then a l (i - (L - 1)) else 0

theorem toArr_co (s L : ℤ) (a : ℤ → ℤ → ℂ) (l m : ℤ) : co2 (toArr s L a) l m = if l < L ∧ max |m| |s| ≤ l then a l m else 0 := by
  unfold toArr
  rw [co2_of]
  have e : L - 1 + m - (L - 1) = m := by ring
  rw [e]
  by_cases hl : l < L ∧ max |m| |s| ≤ l
  · have h1 := abs_le.1 ((le_max_left |m| |s|).trans hl.2)
    rw [if_pos hl, if_pos (by omega), if_pos hl.2]
  · rw [if_neg hl]
    split_ifs with h1 h2
    · exact absurd ⟨h1.2.1, h2⟩ hl
    · rfl
    · rfl

theorem toArr_bl (s L : ℤ) (a : ℤ → ℤ → ℂ) : BL2 L s (toArr s L a) := by
  refine ⟨rfl, rfl, fun l m h => ?_⟩
  rw [toArr_co, if_neg]
  have := le_max_left |m| |s|
  have := le_max_right |m| |s|
  omega

theorem toArr_herm {s L : ℤ} {a : ℤ → ℤ → ℂ} (ha : HermF a) : Herm2 (toArr s L a) := by
  intro l m
  rw [toArr_co, toArr_co, abs_neg]
  split_ifs
  · exact ha l m
  · simp

/-- a series only reads the coefficients with `|m|, |s| ≤ l < L` -/
theorem series_eq {s L : ℤ} {a a' : ℤ → ℤ → ℂ} (h : ∀ l m, l < L → max |m| |s| ≤ l → a l m = a' l m) (θ φ : ℝ) :
    series s L a θ φ = series s L a' θ φ := by
  unfold series
  refine Finset.sum_congr rfl fun l hl => Finset.sum_congr rfl fun m hm => ?_
  rw [Finset.mem_Ico] at hl
  rw [h l m hl.2 (max_le (abs_le.2 (Finset.mem_Icc.1 hm)) hl.1)]

/-- the forward transform of samples of a signal gives its coefficients -/
theorem forward_samples (hb : IsSphere b) (hG : Sampled (gridOf c.sampling)) {L : ℤ} (hL : 1 ≤ L) {g : Grid} (hg : gridOf c.sampling L = .ok g)
    {a : ℤ → ℤ → ℂ} (hr : c.reality = true → c.spin = 0 ∧ HermF a) (hf : Samples g (series (spinOf b c) L a) f) :
    (b.engine c).sphF f L = .ok (toArr (spinOf b c) L a) := by
  obtain ⟨g', hg', hE⟩ := hG L hL
  rw [hg] at hg'; cases hg'
  rw [engine_eq hb]
  refine (bind_to hg).trans (sphFwd_of hE hf.1 (fun t ht x hx => ?_) (toArr_bl _ _ _) fun h => ⟨spinOf_zero (hr h).1, toArr_herm (hr h).2⟩)
  rw [hf.2 t ht x hx]
  refine series_eq (fun l m h1 h2 => ?_) _ _
  have e : input c.reality (toArr (spinOf b c) L a) = co2 (toArr (spinOf b c) L a) := by
    unfold input
    cases h : c.reality
    · simp
    · rw [if_pos rfl, herm_of_sym (toArr_herm (hr h).2)]
  rw [e, toArr_co, if_pos ⟨h1, h2⟩]

theorem inverse_samples (hb : IsSphere b) {L : ℤ} {g : Grid} (hg : gridOf c.sampling L = .ok g) {a : Arr2 ℂ} {p : Px}
    (hr : c.reality = true → Herm2 a) (hp : (b.engine c).sphI a L = .ok p) : Samples g (series (spinOf b c) L (co2 a)) p := by
  rw [engine_eq hb] at hp
  obtain ⟨g', hg', hp⟩ := bind_of hp
  rw [hg] at hg'; cases hg'
  cases hp
  refine ⟨rfl, fun t _ x _ => ?_⟩
  have e : input c.reality a = co2 a := by
    unfold input
    cases h : c.reality
    · simp
    · rw [if_pos rfl, herm_of_sym (hr h)]
  show series _ _ (input c.reality a) _ _ = _
  rw [e]

/-- **C81** the round trip on the sphere, without conditions: analysis of the samples of a band-limited signal succeeds, and
synthesis returns the samples of the signal with degree `l` multiplied by `G l` -/
theorem C81_round_trip (hb : IsSphere b) (hv : c.Valid jm J) (hs : SamplingOk b c) {a : ℤ → ℤ → ℂ}
    (hr : c.reality = true → c.spin = 0 ∧ HermF a) {g : Grid} (hg : gridOf c.sampling c.L = .ok g)
    (hf : Samples g (series (spinOf b c) c.L a) f) :
    ∃ w s r G, IsGain b jm c J G ∧ b.analysis jm c f = .ok (w, s) ∧ b.synthesis jm c w s = .ok r ∧
      Samples g (series (spinOf b c) c.L fun l m => G l * a l m) r := by
  obtain ⟨hw, -, -⟩ := C81_works hb hv (fun h => (hr h).1) hs
  have hG := hs.sampled
  have hF := forward_samples hb hG hv.top.hL hg hr hf
  obtain ⟨psi, phi, hflt⟩ := filters_exist hv b
  obtain ⟨w, s, ha, hR⟩ := b.analysis_run hv hw.ready hw.std hw.exact hw.trip hflt hF
  have hsyn := b.synthesis_run hv hw.ready hw.std hw.trip hflt hF hR
  obtain ⟨r, hr1⟩ : ∃ r, (b.engine c).sphI (degMul (frameSum c.J_min J c.L psi phi) (toArr (spinOf b c) c.L a)) c.L = .ok r := by
    rw [engine_eq hb]; exact ⟨_, bind_to hg⟩
  refine ⟨w, s, r, _, frameSum_isGain hv hflt, ha, hsyn.trans hr1, ?_⟩
  have h := inverse_samples hb hg (fun h l m => ?_) hr1
  · refine ⟨h.1, fun t ht x hx => ?_⟩
    rw [h.2 t ht x hx]
    refine series_eq (fun l m h1 h2 => ?_) _ _
    rw [degMul_co, toArr_co, if_pos ⟨h1, h2⟩]
  · rw [degMul_co, degMul_co, toArr_herm (hr h).2 l m, map_mul, Complex.conj_ofReal]; ring

/-- **C81** exact reconstruction on the sphere: synthesis returns the samples it started from -/
theorem C81_reconstruction (hb : IsSphere b) (hv : c.Valid jm J) (hs : SamplingOk b c) {k : Arr2 ℝ}
    (hk : k_lam jm c.L c.lam 300 = .ok k) (hno : NoOvershoot k) {a : ℤ → ℤ → ℂ} (hspin : ∀ l m, l < |c.spin| → a l m = 0)
    (hr : c.reality = true → c.spin = 0 ∧ HermF a) {g : Grid} (hg : gridOf c.sampling c.L = .ok g)
    (hf : Samples g (series (spinOf b c) c.L a) f) :
    ∃ w s r, b.analysis jm c f = .ok (w, s) ∧ b.synthesis jm c w s = .ok r ∧
      Samples g (series (spinOf b c) c.L a) r ∧ ∀ t ∈ Finset.Ico 0 g.nθ, ∀ x ∈ Finset.Ico 0 g.nφ, r.v [t, x] = f.v [t, x] := by
  obtain ⟨w, s, r, G, hG, h1, h2, h3⟩ := C81_round_trip hb hv hs hr hg hf
  have hS : Samples g (series (spinOf b c) c.L a) r := by
    refine ⟨h3.1, fun t ht x hx => (h3.2 t ht x hx).trans (series_eq (fun l m hl1 hl2 => ?_) _ _)⟩
    by_cases hls : l < |c.spin|
    · rw [hspin l m hls, mul_zero]
    · have h0 : 0 ≤ l := (abs_nonneg m).trans ((le_max_left _ _).trans hl2)
      rw [((hG k hk).1 l h0 hl1 (by omega)).2.2 hno, Complex.ofReal_one, one_mul]
  exact ⟨w, s, r, h1, h2, hS, fun t ht x hx => (hS.2 t ht x hx).trans (hf.2 t ht x hx).symm⟩

/-- **C81** in particular for `lam = 2, …, 10` and every band-limit up to `maxL` -/
theorem C81_dyadic {p : ℕ} (hb : IsSphere b) (hv : c.Valid jm J) (hs : SamplingOk b c) (hp : 2 ≤ p) (hp' : p ≤ 10) (hlam : c.lam = p)
    (hL : c.L ≤ maxL p) {a : ℤ → ℤ → ℂ} (hspin : ∀ l m, l < |c.spin| → a l m = 0)
    (hr : c.reality = true → c.spin = 0 ∧ HermF a) {g : Grid} (hg : gridOf c.sampling c.L = .ok g)
    (hf : Samples g (series (spinOf b c) c.L a) f) :
    ∃ w s r, b.analysis jm c f = .ok (w, s) ∧ b.synthesis jm c w s = .ok r ∧
      Samples g (series (spinOf b c) c.L a) r ∧ ∀ t ∈ Finset.Ico 0 g.nθ, ∀ x ∈ Finset.Ico 0 g.nφ, r.v [t, x] = f.v [t, x] := by
  have hT := hv.top
  have hk := k_lam_ok hT (show (3 : ℤ) ≤ 300 by norm_num)
  refine C81_reconstruction hb hv hs hk ?_ hspin hr hg hf
  rw [hlam] at hT hk
  exact (by rw [hlam]; exact noOvershoot_int hp hp' hT hL hk)

/-! ## Maps -/

/-- the directional convolution of a signal with a wavelet: its inner products with the rotated wavelet -/
noncomputable def directional (L : ℤ) (a psi : ℤ → ℤ → ℂ) (α β γ : ℝ) : ℂ :=
  ∑ l ∈ Finset.Ico 0 L, ∑ m ∈ Finset.Icc (-l) l, a l m * (starRingEnd ℂ) (∑ n ∈ Finset.Icc (-l) l, wD l m n α β γ * psi l n)

theorem wseries_directional {L Lj Nj : ℤ} {W : ℤ → ℤ → ℤ → ℂ} {a psi : ℤ → ℤ → ℂ} (hLj : Lj ≤ L) (hNj : Nj ≤ L)
    (hW : ∀ n l m, |n| ≤ l → |m| ≤ l → l < L → W n l m = ((8 * Real.pi ^ 2 / (2 * l + 1) : ℝ) : ℂ) * (a l m * (starRingEnd ℂ) (psi l n)))
    (hpsi : ∀ l n, psi l n ≠ 0 → l < Lj ∧ |n| < Nj) (α β γ : ℝ) :
    wseries Lj Nj W α β γ = directional L a psi α β γ := by
  have hT : ∀ n l m, |n| ≤ l → |m| ≤ l → l < L → (((2 * l + 1) / (8 * Real.pi ^ 2) : ℝ) : ℂ) * W n l m * (starRingEnd ℂ) (wD l m n α β γ) =
      a l m * (starRingEnd ℂ) (wD l m n α β γ * psi l n) := by
    intro n l m h1 h2 h3
    rw [hW n l m h1 h2 h3, map_mul, ← mul_assoc, ← Complex.ofReal_mul]
    have hl : (0 : ℝ) ≤ l := by exact_mod_cast (abs_nonneg n).trans h1
    have : (2 * (l : ℝ) + 1) / (8 * Real.pi ^ 2) * (8 * Real.pi ^ 2 / (2 * l + 1)) = 1 := by
      have := Real.pi_pos
      field_simp
    rw [this]; push_cast; ring
  have h1 : wseries Lj Nj W α β γ = ∑ n ∈ Finset.Ioo (-L) L, ∑ l ∈ Finset.Ico |n| L, ∑ m ∈ Finset.Icc (-l) l,
      a l m * (starRingEnd ℂ) (wD l m n α β γ * psi l n) := by
    unfold wseries
    rw [← Finset.sum_subset (Finset.Ioo_subset_Ioo (neg_le_neg hNj) hNj)]
    · refine Finset.sum_congr rfl fun n hn => ?_
      rw [← Finset.sum_subset (Finset.Ico_subset_Ico_right hLj)]
      · refine Finset.sum_congr rfl fun l hl => Finset.sum_congr rfl fun m hm => ?_
        rw [Finset.mem_Ico] at hl
        exact hT n l m hl.1 (abs_le.2 (Finset.mem_Icc.1 hm)) (by omega)
      · intro l hl hl'
        refine Finset.sum_eq_zero fun m _ => ?_
        rw [Finset.mem_Ico] at hl hl'
        have : psi l n = 0 := by
          by_contra h
          have := hpsi l n h
          omega
        rw [this, mul_zero, map_zero, mul_zero]
    · intro n hn hn'
      refine Finset.sum_eq_zero fun l _ => Finset.sum_eq_zero fun m _ => ?_
      rw [Finset.mem_Ioo] at hn hn'
      have : psi l n = 0 := by
        by_contra h
        have := abs_lt.1 (hpsi l n h).2
        omega
      rw [this, mul_zero, map_zero, mul_zero]
  rw [h1]
  unfold directional
  have h2 : ∑ n ∈ Finset.Ioo (-L) L, ∑ l ∈ Finset.Ico |n| L, ∑ m ∈ Finset.Icc (-l) l,
      a l m * (starRingEnd ℂ) (wD l m n α β γ * psi l n) = ∑ l ∈ Finset.Ico 0 L, ∑ n ∈ Finset.Icc (-l) l, ∑ m ∈ Finset.Icc (-l) l,
      a l m * (starRingEnd ℂ) (wD l m n α β γ * psi l n) := by
    refine Finset.sum_comm' fun n l => ?_
    simp only [Finset.mem_Ico, Finset.mem_Icc, Finset.mem_Ioo]
    rw [abs_le]
    omega
  rw [h2]
  refine Finset.sum_congr rfl fun l _ => ?_
  rw [Finset.sum_comm]
  refine Finset.sum_congr rfl fun m _ => ?_
  rw [map_sum, Finset.mul_sum]

/-- **C82** what the maps are: the wavelet map of scale `j` holds the samples of the directional convolution of the signal
with wavelet `j`, the scaling map the samples of the signal smoothed by the scaling function -/
theorem C82_maps (hb : IsSphere b) (hv : c.Valid jm J) (hs : SamplingOk b c) (hflt : b.filters jm c = .ok (psi, phi)) {a : ℤ → ℤ → ℂ}
    (hr : c.reality = true → c.spin = 0 ∧ HermF a) {g : Grid} (hg : gridOf c.sampling c.L = .ok g)
    (hf : Samples g (series (spinOf b c) c.L a) f) :
    ∃ w s, b.analysis jm c f = .ok (w, s) ∧ (w.length : ℤ) = J + 1 - c.J_min ∧
      (∀ j, c.J_min ≤ j → j ≤ J → ∃ p gj, listGet w (j - c.J_min) = .ok p ∧ gridOf c.sampling (c.Lj b.mr j) = .ok gj ∧
        Samples3 gj (c.Nj b.mr j) (directional c.L a fun l n => psi.v j l (c.L - 1 + n)) p) ∧
      ∃ gs, gridOf c.sampling (c.Ls b.mr) = .ok gs ∧ Samples gs (series (spinOf b c) c.L fun l m =>
        ((Real.sqrt (4 * Real.pi / (2 * l + 1)) * phi.v l : ℝ) : ℂ) * a l m) s := by
  obtain ⟨hw, -, -⟩ := C81_works hb hv (fun h => (hr h).1) hs
  have hG := hs.sampled
  have hF := forward_samples hb hG hv.top.hL hg hr hf
  have hbl := (hw.std.sph f c.L _ hF).1
  have hFl := filters_ok hv hflt b.mr
  obtain ⟨w, s, ha, hR⟩ := b.analysis_run hv hw.ready hw.std hw.exact hw.trip hflt hF
  refine ⟨w, s, ha, hR.len, fun j h0 h1 => ?_, ?_⟩
  · obtain ⟨p, hp, hp1, -⟩ := hR.wav j h0 h1
    have hL := hv.Lj_pos b.mr j
    rw [engine_eq hb] at hp1
    obtain ⟨gj, hgj, hp1⟩ := bind_of hp1
    cases hp1
    refine ⟨_, gj, hp, hgj, rfl, fun y _ t _ x _ => ?_⟩
    refine wseries_directional hL.2.2.2.1 hL.2.2.2.2 (fun n l m h1 h2 h3 => ?_) (fun l n h => ⟨(hFl.wav j l n h).2.1, (hFl.wav j l n h).2.2.1⟩) _ _ _
    have e : co3 (wavCoeffs (c.Lj b.mr j) (c.Nj b.mr j) (fun l n => psi.v j l (c.L - 1 + n)) (toArr (spinOf b c) c.L a)) n l m = _ :=
      wavCoeffs_co hFl.trunc hbl.tri (rfl : LN_j c.L j c.N c.lam b.mr = (c.Lj b.mr j, c.Nj b.mr j, c.L0 b.mr j)) n l m
    rw [e, toArr_co]
    by_cases hls : l < |spinOf b c|
    · have := abs_spinOf b c
      have h0 : psi.v j l (c.L - 1 + n) = 0 := by
        by_contra h
        have := (hFl.wav j l n h).2.2.2.2.2
        omega
      simp [h0]
    · rw [if_pos ⟨h3, max_le h2 (by omega)⟩]
  · rw [b.analysis_eq_with hflt, b.analysisWith_formula hv hw.ready hw.std (fun _ => hflt) hFl, hF, Py.bind_ok] at ha
    obtain ⟨w', -, ha⟩ := bind_of ha
    obtain ⟨s', hs', ha⟩ := bind_of ha
    cases ha
    have hLs := hv.Ls_pos b.mr
    obtain ⟨gs, hgs, hE⟩ := hG _ hLs.1
    refine ⟨gs, hgs, ?_⟩
    have hSb := hFl.scal_bl hbl
    have hser : ∀ θ φ, series (spinOf b c) (c.Ls b.mr) (co2 (scalCoeffs (c.Ls b.mr) phi.v (toArr (spinOf b c) c.L a))) θ φ =
        series (spinOf b c) c.L (fun l m => ((Real.sqrt (4 * Real.pi / (2 * l + 1)) * phi.v l : ℝ) : ℂ) * a l m) θ φ := by
      intro θ φ
      unfold series
      rw [← Finset.sum_subset (Finset.Ico_subset_Ico_right hLs.2)]
      · refine Finset.sum_congr rfl fun l hl => Finset.sum_congr rfl fun m hm => ?_
        rw [Finset.mem_Ico] at hl
        have : co2 (scalCoeffs (c.Ls b.mr) phi.v (toArr (spinOf b c) c.L a)) l m = _ := scalCoeffs_co hFl.trunc hbl.tri l m
        rw [this, toArr_co, if_pos ⟨by omega, max_le (abs_le.2 (Finset.mem_Icc.1 hm)) hl.1⟩]
      · intro l hl hl'
        refine Finset.sum_eq_zero fun m _ => ?_
        rw [Finset.mem_Ico] at hl hl'
        have : phi.v l = 0 := by
          by_contra h
          have := (hFl.scal l h).1
          omega
        beta_reduce
        rw [this]; simp
    have hsam : ∀ p, (b.engine c).sphI (scalCoeffs (c.Ls b.mr) phi.v (toArr (spinOf b c) c.L a)) (c.Ls b.mr) = .ok p →
        Samples gs (series (spinOf b c) c.L fun l m => ((Real.sqrt (4 * Real.pi / (2 * l + 1)) * phi.v l : ℝ) : ℂ) * a l m) p := by
      intro p hp
      have h := inverse_samples hb hgs (fun h => hSb.2 (toArr_herm (hr h).2)) hp
      exact ⟨h.1, fun t ht x hx => (h.2 t ht x hx).trans (hser _ _)⟩
    unfold Backend.scalI at hs'
    split_ifs at hs' with hc
    · have hmw : c.sampling.toLower = "mw" ∨ c.sampling.toLower = "gl" := by
        rcases hs with h | h
        · exact h
        · rw [hc.1] at h; exact absurd h.1 (by simp)
      have hS1 := hSb.1
      cases hs'
      rw [hc.2] at hgs hS1 hser ⊢
      have hg1 : gs.nθ = 1 ∧ gs.nφ = 1 := by
        unfold gridOf at hgs
        rcases hmw with hmw | hmw <;> rw [hmw] at hgs <;> cases hgs <;> exact ⟨rfl, rfl⟩
      refine ⟨by rw [hg1.1, hg1.2]; exact congrArg₂ _ hS1.r (congrArg₂ _ hS1.c rfl), fun t ht x hx => ?_⟩
      have ht0 : t = 0 := by have := Finset.mem_Ico.1 ht; omega
      have hx0 : x = 0 := by have := Finset.mem_Ico.1 hx; omega
      subst ht0 hx0
      exact (dc_value hS1 (abs_spinOf b c) _ _).trans (hser _ _)
    · exact hsam _ hs'

/-! ## Samplings with more than one sample at band-limit 1 -/

/-- **C44** if s2fft refuses images of shape `(1, 1)` at band-limit 1, synthesis fails on everything analysis returns with
`J_min = 0`, for the JAX, C and precompute routines -/
theorem C44_rejected (hv : c.Valid jm J) (hL : 2 ≤ c.L) (h0 : c.J_min = 0) (hb : b.isBase = false)
    (hR : b.Ready jm c) (hE : (b.engine c).Std c.reality) {e : PyErr}
    (hrej : ∀ p : Px, p.shape = [1, 1] → (b.engine c).sphF p 1 = .error e) (h : b.analysis jm c f = .ok (w, s)) :
    b.synthesis jm c w s = .error e := by
  obtain ⟨psi, phi, hflt⟩ := filters_exist hv b
  have hmr : b.mr = true := by cases b <;> first | rfl | cases hb
  have hLs : c.Ls b.mr = 1 := by rw [hmr]; exact (C44_single_degree hv hL).2 h0
  have hs := (C44_shape hv hL h0 hb hR hE h ⟨fun _ _ _ => .ok [1, 1], fun _ _ _ _ => .ok []⟩ rfl).1
  have hlp : b.isLooped = true → c.reality = true → (b.engine c).NonnegOnly := by
    cases b <;> first | (cases hb; done) | (intro hl; cases hl; done)
  have hck : b.check jm c w s = .ok () := by cases b <;> first | rfl | cases hb
  have hsh : (b.fscal c s).shape = [1, 1] := by
    cases b <;> first | exact hs | skip
    show (if c.reality then s.re else s).shape = _
    split_ifs <;> exact hs
  rw [b.synthesis_formula hv hR hE hlp hflt, hck, Py.bind_ok, hLs, hrej _ hsh]
  rfl

/-- **C44** so with the samplings `mwss` and `dh`, which have more than one sample at band-limit 1, and transforms that
check shapes, what analysis returns with `J_min = 0` cannot be synthesised -/
theorem C44_sphere (hb : IsSphere b) (hv : c.Valid jm J) (hL : 2 ≤ c.L) (h0 : c.J_min = 0) (hbase : b.isBase = false)
    (hs : c.sampling.toLower = "mwss" ∨ c.sampling.toLower = "dh") {a : ℤ → ℤ → ℂ} (hr : c.reality = true → c.spin = 0 ∧ HermF a)
    {g : Grid} (hg : gridOf c.sampling c.L = .ok g) (hf : Samples g (series (spinOf b c) c.L a) f) :
    ∃ w s, b.analysis jm c f = .ok (w, s) ∧ b.synthesis jm c w s = .error .valueError := by
  have hG : Sampled (gridOf c.sampling) := gridOf_sampled (by tauto)
  have hE : (b.engine c).Std c.reality := by rw [engine_eq hb]; exact engine_std
  have hR : b.Ready jm c := by
    rcases hb with ⟨mr, rfl⟩ | ⟨mr, rfl⟩ | rfl | rfl | rfl | rfl
    · cases hbase
    · cases hbase
    · intro forward
      unfold Construct.generate_wigner_precomputes
      rw [hv.top.hJ, Py.bind_ok]
      exact mapM_all_ok fun j _ _ => ⟨(), rfl⟩
    · rcases hs with h | h
      · exact ⟨by rw [h]; decide, 1, by rw [h]; rfl⟩
      · exact ⟨by rw [h]; decide, 2, by rw [h]; rfl⟩
    all_goals
      intro forward
      unfold Construct.generate_full_precomputes
      rw [hv.top.hJ, Py.bind_ok]
      obtain ⟨l, hl⟩ := mapM_all_ok (a := c.J_min) (b := J) (m := fun j => do
        let p := LN_j c.L j c.N c.lam true
        Sphere.pre.wigKernel p.1 p.2.1 c.reality c.sampling c.nside forward) fun j _ _ => ⟨(), rfl⟩
      refine ⟨(some 0, some 0, l), ?_⟩
      refine Eq.trans (congrArg (fun x => x >>= _) hl) rfl
  obtain ⟨psi, phi, hflt⟩ := filters_exist hv b
  have hF := forward_samples hb hG hv.top.hL hg hr hf
  have hLp := fun j => (hv.Lj_pos b.mr j).1
  have ha : ∃ w s, b.analysis jm c f = .ok (w, s) := by
    rw [b.analysis_eq_with hflt, b.analysisWith_formula hv hR hE (fun _ => hflt) (filters_ok hv hflt b.mr), hF, Py.bind_ok, engine_eq hb]
    obtain ⟨w, hw⟩ := mapM_all_ok (a := c.J_min) (b := J + 1) (m := fun j =>
      (engine (gridOf c.sampling) (spinOf b c) c.reality).wigI (wavCoeffs (c.Lj b.mr j) (c.Nj b.mr j) (fun l n => psi.v j l (c.L - 1 + n))
        (toArr (spinOf b c) c.L a)) (c.Lj b.mr j) (c.Nj b.mr j) (c.L0 b.mr j))
      fun j _ _ => by
        obtain ⟨gj, hgj, -⟩ := hG _ (hLp j)
        exact ⟨_, bind_to hgj⟩
    rw [hw, Py.bind_ok]
    unfold Backend.scalI
    rw [engine_eq hb]
    split_ifs
    · exact ⟨_, _, rfl⟩
    · obtain ⟨gs, hgs, -⟩ := hG _ (hv.Ls_pos b.mr).1
      have : (engine (gridOf c.sampling) (spinOf b c) c.reality).sphI (scalCoeffs (c.Ls b.mr) phi.v (toArr (spinOf b c) c.L a)) (c.Ls b.mr) = .ok _ :=
        bind_to hgs
      rw [this]
      exact ⟨_, _, rfl⟩
  obtain ⟨w, s, ha⟩ := ha
  refine ⟨w, s, ha, C44_rejected hv hL h0 hbase hR hE (fun p hp => ?_) ha⟩
  obtain ⟨g1, hg1, -⟩ := hG 1 le_rfl
  rw [engine_eq hb]
  refine (bind_to hg1).trans (if_neg ?_)
  rw [hp]
  unfold gridOf at hg1
  rcases hs with h | h <;> rw [h] at hg1 <;> cases hg1 <;> decide

/-! ## An instance: the signal `Y_10`, that is `sqrt(3/4π) cos θ` -/

theorem mw_lower : "mw".toLower = "mw" := by
  apply String.toList_inj.1
  rw [String.toLower, String.toList_map]
  decide

theorem wignerd_one (β : ℝ) : wignerd 1 0 0 β = Real.cos β := by
  have e : Finset.Icc (max 0 ((0 : ℤ) - 0)) (min (1 + 0) (1 - 0)) = {0, 1} := by rfl
  unfold wignerd
  rw [e, Finset.sum_pair (by norm_num)]
  have h := Real.cos_two_mul (β / 2)
  have h2 := Real.sin_sq_add_cos_sq (β / 2)
  rw [show 2 * (β / 2) = β by ring] at h
  simp [wwt, fac]
  linarith

/-- `Y_10` -/
noncomputable def exSig (l m : ℤ) : ℂ := if l = 1 ∧ m = 0 then 1 else 0

theorem exSig_herm : HermF exSig := by
  intro l m
  unfold exSig
  by_cases h : l = 1 ∧ m = 0
  · obtain ⟨rfl, rfl⟩ := h; simp
  · rw [if_neg h, if_neg (by omega)]; simp

theorem exSig_series (θ φ : ℝ) : series 0 3 exSig θ φ = ((Real.sqrt (3 / (4 * Real.pi)) * Real.cos θ : ℝ) : ℂ) := by
  unfold series
  have e : Finset.Ico |(0 : ℤ)| 3 = Finset.Ico 0 3 := by rfl
  rw [e, Finset.sum_eq_single 1, Finset.sum_eq_single 0]
  · simp only [exSig, sY, neg_zero, wignerd_one]
    norm_num [cis_zero]
  · intro m _ hm; simp [exSig, hm]
  · intro h; exact absurd (Finset.mem_Icc.2 ⟨by norm_num, by norm_num⟩) h
  · intro l _ hl
    exact Finset.sum_eq_zero fun m _ => by simp [exSig, hl]
  · intro h; exact absurd (Finset.mem_Ico.2 ⟨by norm_num, by norm_num⟩) h

/-- its samples -/
noncomputable def exImg : Px := ⟨[3, 5], fun idx => match idx with
  | [t, _] => ((Real.sqrt (3 / (4 * Real.pi)) * Real.cos ((2 * t + 1) * Real.pi / 5) : ℝ) : ℂ)
  | _ => 0⟩

theorem exGrid : ∃ g, gridOf "mw" 3 = .ok g ∧ Samples g (series 0 3 exSig) exImg := by
  refine ⟨⟨3, fun t => (2 * t + 1) * Real.pi / (2 * (3 : ℤ) - 1), 5⟩, ?_, rfl, fun t _ x _ => ?_⟩
  · unfold gridOf; rw [mw_lower]; rfl
  · rw [exSig_series]
    show ((Real.sqrt (3 / (4 * Real.pi)) * Real.cos ((2 * t + 1) * Real.pi / 5) : ℝ) : ℂ) = _
    norm_num

theorem exSphere_ok (b : Backend) (reality : Bool) : SamplingOk b (exCfg reality 0) := Or.inl (Or.inl mw_lower)

/-- all six backends, as a real and as a complex signal -/
example (hb : IsSphere b) (reality : Bool) : ∃ w s r, exImg.v [0, 0] ≠ 0 ∧ b.analysis j_max (exCfg reality 0) exImg = .ok (w, s) ∧
    b.synthesis j_max (exCfg reality 0) w s = .ok r ∧ r.v [0, 0] = exImg.v [0, 0] := by
  obtain ⟨g, hg, hf⟩ := exGrid
  have e : spinOf b (exCfg reality 0) = 0 := spinOf_zero rfl
  obtain ⟨w, s, r, h1, h2, -, h3⟩ := C81_dyadic (p := 2) (a := exSig) hb (exCfg_valid reality 0) (exSphere_ok b reality) le_rfl (by norm_num)
    (by norm_num [exCfg]) (show (3 : ℤ) ≤ maxL 2 by decide) (fun l m h => if_neg (by rw [show (exCfg reality 0).spin = 0 from rfl, abs_zero] at h; omega))
    (fun _ => ⟨rfl, exSig_herm⟩) hg (by rw [e]; exact hf)
  have hs := hf.1
  have hsh : [(3 : ℤ), 5] = [g.nθ, g.nφ] := hs
  injection hsh with hn hs2
  injection hs2 with hp _
  refine ⟨w, s, r, ?_, h1, h2, h3 0 (Finset.mem_Ico.2 (by omega)) 0 (Finset.mem_Ico.2 (by omega))⟩
  show ((Real.sqrt (3 / (4 * Real.pi)) * Real.cos ((2 * (0 : ℤ) + 1) * Real.pi / 5) : ℝ) : ℂ) ≠ 0
  have h0 := Real.pi_pos
  have c1 : 0 < Real.cos ((2 * (0 : ℤ) + 1) * Real.pi / 5) := by
    apply Real.cos_pos_of_mem_Ioo
    constructor <;> push_cast <;> linarith
  have c2 : 0 < Real.sqrt (3 / (4 * Real.pi)) := Real.sqrt_pos.2 (by positivity)
  exact_mod_cast (mul_pos c2 c1).ne'

/-- and its maps -/
example (hb : IsSphere b) (hflt : b.filters j_max (exCfg false 0) = .ok (psi, phi)) : ∃ w s p gj, b.analysis j_max (exCfg false 0) exImg = .ok (w, s) ∧
    listGet w 1 = .ok p ∧ gridOf "mw" ((exCfg false 0).Lj b.mr 1) = .ok gj ∧
    Samples3 gj ((exCfg false 0).Nj b.mr 1) (directional 3 exSig fun l n => psi.v 1 l (2 + n)) p := by
  obtain ⟨g, hg, hf⟩ := exGrid
  have e : spinOf b (exCfg false 0) = 0 := spinOf_zero rfl
  obtain ⟨w, s, h1, -, h2, -⟩ := C82_maps (a := exSig) hb (exCfg_valid false 0) (exSphere_ok b false) hflt (by simp [exCfg]) hg (by rw [e]; exact hf)
  obtain ⟨p, gj, a1, a2, a3⟩ := h2 1 (by norm_num [exCfg]) (by norm_num)
  exact ⟨w, s, p, gj, h1, a1, a2, a3⟩

theorem gl_lower : "gl".toLower = "gl" := by
  apply String.toList_inj.1
  rw [String.toLower, String.toList_map]
  decide

/-- on the Gauss-Legendre grid -/
example (hb : IsSphere b) (reality : Bool) : ∃ f w s r, b.analysis j_max ⟨3, 2, 0, 2, 0, "gl", none, reality⟩ f = .ok (w, s) ∧
    b.synthesis j_max ⟨3, 2, 0, 2, 0, "gl", none, reality⟩ w s = .ok r ∧
    ∀ t ∈ Finset.Ico 0 3, ∀ x ∈ Finset.Ico 0 5, r.v [t, x] = ((Real.sqrt (3 / (4 * Real.pi)) * Real.cos (glθ 3 t) : ℝ) : ℂ) := by
  set c : Cfg := ⟨3, 2, 0, 2, 0, "gl", none, reality⟩ with hc
  have hv : c.Valid j_max 2 :=
    ⟨(exCfg_valid reality 0).top, (exCfg_valid reality 0).hN, (exCfg_valid reality 0).hNL, (exCfg_valid reality 0).h0, (exCfg_valid reality 0).h1⟩
  have e : spinOf b c = 0 := spinOf_zero rfl
  have hg : gridOf c.sampling c.L = .ok ⟨3, glθ 3, 5⟩ := by
    show gridOf "gl" 3 = _
    unfold gridOf; rw [gl_lower]; rfl
  obtain ⟨w, s, r, h1, h2, -, h3⟩ := C81_dyadic (p := 2) (a := exSig) (f := ⟨[3, 5], fun i => match i with
      | [t, _] => ((Real.sqrt (3 / (4 * Real.pi)) * Real.cos (glθ 3 t) : ℝ) : ℂ)
      | _ => 0⟩) hb hv (Or.inl (Or.inr gl_lower)) le_rfl (by norm_num) (by norm_num [hc])
    (show (3 : ℤ) ≤ maxL 2 by decide) (fun l m h => if_neg (by rw [show c.spin = 0 from rfl, abs_zero] at h; omega))
    (fun _ => ⟨rfl, exSig_herm⟩) hg ⟨rfl, fun t _ x _ => by rw [e, show c.L = 3 from rfl, exSig_series]⟩
  exact ⟨_, w, s, r, h1, h2, fun t ht x hx => h3 t ht x hx⟩

theorem dh_lower : "dh".toLower = "dh" := by
  apply String.toList_inj.1
  rw [String.toLower, String.toList_map]
  decide

/-- `C44_sphere` for the JAX routines, `dh` sampling, `L = 3` -/
example : ∃ f w s, (Backend.jax Sphere.jax).analysis j_max ⟨3, 2, 0, 2, 0, "dh", none, false⟩ f = .ok (w, s) ∧
    (Backend.jax Sphere.jax).synthesis j_max ⟨3, 2, 0, 2, 0, "dh", none, false⟩ w s = .error .valueError := by
  have hv : (⟨3, 2, 0, 2, 0, "dh", none, false⟩ : Cfg).Valid j_max 2 :=
    ⟨(exCfg_valid false 0).top, (exCfg_valid false 0).hN, (exCfg_valid false 0).hNL, (exCfg_valid false 0).h0, (exCfg_valid false 0).h1⟩
  obtain ⟨g, hg, -⟩ := gridOf_sampled (sampling := "dh") (Or.inr (Or.inr (Or.inl dh_lower))) 3 (by norm_num)
  obtain ⟨w, s, h1, h2⟩ := C44_sphere (a := exSig) (f := sphInv g 0 false (toArr 0 3 exSig) 3) (Or.inr (Or.inr (Or.inl rfl))) hv (by norm_num) rfl rfl (Or.inr dh_lower)
    (by simp) hg (by
      refine ⟨rfl, fun t _ x _ => series_eq (fun l m h1 h2 => ?_) _ _⟩
      show co2 (toArr 0 3 exSig) l m = _
      rw [toArr_co]; exact if_pos ⟨h1, h2⟩)
  exact ⟨_, w, s, h1, h2⟩

end S2wav
