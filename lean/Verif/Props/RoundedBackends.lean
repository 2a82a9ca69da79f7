import Verif.Lemmas.BackendOps
import Verif.Props.RoundedJax

/-! # C109: the JAX, precompute and PyTorch transforms in double precision

`analysis` and `synthesis` of `s2wav/transforms/wavelet.py`, `wavelet_precompute.py` and `wavelet_precompute_torch.py`, with everything
s2wav itself computes in double precision, and with s2fft's transforms accurate up to a relative error `δ`, as in C107. -/

namespace S2wav
open Classical

/-! ### exact arithmetic -/

/-- **C109** the programs over an arbitrary arithmetic are, in exact arithmetic, the programs of the exact model, on all inputs
(wavelet.py). -/
theorem C109_exact_jax {K : Type} (E : JaxFFT K) (jm : JMax) (L N J_min : ℤ) (lam : ℝ) (spin : ℤ) (sampling : String) (nside : Option ℤ) (reality : Bool)
    (filters : Option (Arr3 ℂ × Arr1 ℝ)) (precomps : Option (List K)) :
    (∀ f, Jax.analysisO Ops.exact E.toO (Real.sqrt (1 / (4 * Real.pi))) jm f L N J_min lam spin sampling nside reality filters precomps =
      Jax.analysis jm E f L N J_min lam spin sampling nside reality filters precomps) ∧
    (∀ w s, Jax.synthesisO Ops.exact E.toO jm w s L N J_min lam spin sampling nside reality filters precomps =
      Jax.synthesis jm E w s L N J_min lam spin sampling nside reality filters precomps) := by
  constructor
  · intro f
    unfold Jax.analysisO Jax.analysis
    cases precomps <;> simp only [Jax.precompsO, Construct.generate_wigner_precomputes, bind_assoc] <;> rfl
  · intro w s
    unfold Jax.synthesisO Jax.synthesis
    cases precomps <;> simp only [Jax.precompsO, Construct.generate_wigner_precomputes, bind_assoc, einsumO_exact] <;> rfl

/-- **C109** the same for wavelet_precompute.py. -/
theorem C109_exact_pre {KW KS : Type} (E : PreFFT KW KS) (jm : JMax) (L N J_min : ℤ) (lam : ℝ) (spin : ℤ) (sampling : String) (nside : Option ℤ) (reality : Bool)
    (filters : Option (Arr3 ℂ × Arr1 ℝ)) (precomps : Option (Option KS × Option KS × List KW)) :
    (∀ f, Pre.analysisO Ops.exact E.toO (Real.sqrt (1 / (4 * Real.pi))) jm f L N J_min lam spin sampling nside reality filters precomps =
      Pre.analysis jm E f L N J_min lam spin sampling nside reality filters precomps) ∧
    (∀ w s, Pre.synthesisO Ops.exact E.toO jm w s L N J_min lam spin sampling nside reality filters precomps =
      Pre.synthesis jm E w s L N J_min lam spin sampling nside reality filters precomps) := by
  constructor
  · intro f
    unfold Pre.analysisO Pre.analysis
    cases precomps
    · rfl
    · simp only [bind_assoc]; rfl
  · intro w s
    unfold Pre.synthesisO Pre.synthesis
    cases precomps
    · rfl
    · simp only [bind_assoc, einsumO_exact]; rfl

/-- **C109** the same for wavelet_precompute_torch.py. -/
theorem C109_exact_torch {KW KS : Type} (E : PreFFT KW KS) (jm : JMax) (L N J_min : ℤ) (lam : ℝ) (spin : ℤ) (sampling : String) (nside : Option ℤ) (reality : Bool)
    (filters : Option (Arr3 ℂ × Arr1 ℝ)) (precomps : Option (Option KS × Option KS × List KW)) :
    (∀ f, Torch.analysisO Ops.exact E.toO (Real.sqrt (1 / (4 * Real.pi))) jm f L N J_min lam spin sampling nside reality filters precomps =
      Torch.analysis jm E f L N J_min lam spin sampling nside reality filters precomps) ∧
    (∀ w s, Torch.synthesisO Ops.exact E.toO jm w s L N J_min lam spin sampling nside reality filters precomps =
      Torch.synthesis jm E w s L N J_min lam spin sampling nside reality filters precomps) := by
  constructor
  · intro f
    unfold Torch.analysisO Torch.analysis
    cases precomps
    · rfl
    · simp only [bind_assoc]; rfl
  · intro w s
    unfold Torch.synthesisO Torch.synthesis
    cases precomps
    · rfl
    · simp only [bind_assoc, einsumO_exact]; rfl

/-! ### the filters -/

/-- the filters are what `filters_directional_vectorised` or `filters_directional_jax` of `s2wav/filters.py` returns in double precision,
for a C library and a `gammaln` as accurate as is assumed in C101 and C108 (at most 63 directions for the latter, which raises above) -/
def Filt64 (jm : JMax) (c : Cfg) (psi : Arr3 ℂ) (phi : Arr1 ℝ) : Prop :=
  ∃ (m mx : Libm) (lg : F64 → F64), m.Ok ∧
    (Libm.Special m lg ∧ filters_directional_vectorised64 m lg jm c.L c.N c.J_min c.lam c.spin = .ok (psi.map C64.ofC, phi.map F64.fin) ∨
      Libm.Special mx lg ∧ c.N ≤ 63 ∧ filters_directional_jax64 m mx lg jm c.L c.N c.J_min c.lam c.spin = .ok (psi.map C64.ofC, phi.map F64.fin))

/-- the relative error that s2wav's own arithmetic adds to a round trip, as in C107 -/
noncomputable def ownErr (c : Cfg) (J : ℤ) : ℝ :=
  if c.L ≤ 17 then ((c.N : ℝ) + J + 40) / 2 ^ 48 else if c.L ≤ 2049 then 1 / 2 ^ 30 else 0.0011

/-! ### the transforms of s2fft -/

/-- what is assumed of s2fft's JAX transforms in double precision, used with the recursion coefficients `pcA` (analysis) and `pcS`
(synthesis): the accuracy of C107 -/
def JaxFFTO.Near {P K : Type} (E : JaxFFTO C64 P K) (O : Ops C64 F64) (c1 : F64) (c : Cfg) (J : ℤ) (pcA pcS : List K) (δ κ τ : ℝ) : Prop :=
  PipeNear c J true
    (fun j a => do
      let pc ← listGet pcA (j - c.J_min)
      E.wigInverse a (c.Lj true j) (c.Nj true j) c.nside c.sampling c.reality pc (c.L0 true j))
    (fun j p => do
      let pc ← listGet pcS (j - c.J_min)
      E.wigForward p (c.Lj true j) (c.Nj true j) c.nside c.sampling c.reality pc (c.L0 true j))
    (fun a => if c.Ls true = 1 then .ok (E.ofArr2 (a.map fun x => O.mul x (O.ofReal c1)))
      else E.sphInverse a (c.Ls true) c.spin c.nside c.sampling c.reality)
    (fun p => E.sphForward p (c.Ls true) c.spin c.nside c.sampling c.reality) δ κ τ

/-- what is assumed of s2fft's precompute transforms in double precision, used with the kernels `pcA` (analysis) and `pcS`
(synthesis): the accuracy of C107 -/
def PreFFTO.Near {P KW KS : Type} (E : PreFFTO C64 P KW KS) (O : Ops C64 F64) (c1 : F64) (c : Cfg) (J : ℤ) (pcA pcS : Option KS × Option KS × List KW)
    (δ κ τ : ℝ) : Prop :=
  PipeNear c J true
    (fun j a => do
      let pc ← listGet pcA.2.2 (j - c.J_min + (if j < J then 0 else -1))
      E.wigInverse a pc (c.Lj true j) (c.Nj true j) c.sampling c.reality c.nside)
    (fun j p => do
      let pc ← listGet pcS.2.2 (j - c.J_min + (if j < J then 0 else -1))
      E.wigForward p pc (c.Lj true j) (c.Nj true j) c.sampling c.reality c.nside)
    (fun a => if c.Ls true = 1 then .ok (E.ofArr2 (a.map fun x => O.mul x (O.ofReal c1)))
      else do
        let k1 ← unNone pcA.2.1
        E.sphInverse a k1 (c.Ls true) c.sampling c.reality c.spin c.nside)
    (fun p => do
      let k1 ← unNone pcS.2.1
      E.sphForward p k1 (c.Ls true) c.sampling c.reality c.spin c.nside) δ κ τ

section
variable {O : Ops C64 F64} {jm : JMax} {c : Cfg} {J : ℤ} {psi : Arr3 ℂ} {phi : Arr1 ℝ} {flm : Arr2 ℂ} {P : Type} {c1 : F64} {δ κ τ : ℝ} {f : P}
  {p : ℤ → P} {ps : P} {g : Arr2 ℂ}

theorem pipe_filt64 {O' : Ops C64 F64} {mr : Bool} {wI : ℤ → Arr3 C64 → Py P} {wF : ℤ → P → Py (Arr3 C64)} {sI : Arr2 C64 → Py P} {sF : P → Py (Arr2 C64)}
    (hO : O.Good) (hO' : O'.Good) (hn : PipeNear c J mr wI wF sI sF δ κ τ) (hδ : 0 ≤ δ) (hδ1 : δ ≤ 1) (hκ : 0 ≤ κ) (hκ1 : κ ≤ 2 ^ 20) (hτ : 0 ≤ τ) (hτ1 : τ ≤ 1)
    (hv : c.Valid jm J) (hlam : c.lam = 2) (hL' : c.L ≤ 2 ^ 52) (hN' : c.N ≤ 990) (hJ : J ≤ 1000) (hre : c.reality = true → c.N ≤ 41) (hs : |c.spin| < c.L)
    (hF : Filt64 jm c psi phi) (hbl : BL2 c.L c.spin flm) (hherm : c.reality = true → Herm2 flm) (hfb : ∀ l m, ‖co2 flm l m‖ ≤ 2 ^ (300 : ℤ)) :
    (∀ multires, c.Filters J multires psi phi) ∧ ∃ p ps g, PipeRun O O' mr c J wI wF sI sF psi phi flm p ps g ∧
      norm2 c.L (fun l m => co2 g l m - co2 flm l m) ≤ (1.01 * (δ + κ * 2 ^ (-47 : ℤ)) + ownErr c J) * norm2 c.L (co2 flm) +
        (2 * (J + 2) * τ + 2 ^ (-550 : ℤ)) := by
  have hT := hv.top
  rw [hlam] at hT
  obtain ⟨m, mx, lg, hm, ⟨hsp, h⟩ | ⟨hsp, hN2, h⟩⟩ := hF
  · obtain ⟨X, hd⟩ := dir64_elim hm hsp hT (by omega) hJ hv.hN hN' hv.h0 hv.h1 (hlam ▸ h)
    exact ⟨dir64_filters hsp hT.hL hlam hv.hN hv.h0 hv.h1 hre rfl hd,
      pipe_dir64 hO hO' hsp hn hδ hδ1 hκ hκ1 hτ hτ1 hv hlam hL' hN' hJ hre hs hd hbl hherm hfb⟩
  · obtain ⟨X, hd⟩ := dir64_jax_elim hm hsp hT (by omega) hJ hv.hN hN2 hv.h0 hv.h1 (hlam ▸ h)
    exact ⟨dir64_filters hsp hT.hL hlam hv.hN hv.h0 hv.h1 hre rfl hd,
      pipe_dir64 hO hO' hsp hn hδ hδ1 hκ hκ1 hτ hτ1 hv hlam hL' hN' hJ hre hs hd hbl hherm hfb⟩

theorem BL2.zero_spin {L s : ℤ} {flm : Arr2 ℂ} (h : BL2 L s flm) : BL2 L 0 flm := ⟨h.r, h.c, fun l m hz => by
  rcases hz with hz | hz
  · exact h.zero l m (Or.inl hz)
  · rw [abs_zero] at hz
    exact h.zero l m (Or.inl (by have := abs_nonneg m; omega))⟩

/-! ### wavelet.py -/

section
variable {K : Type} {E : JaxFFTO C64 P K} {pcA pcS : List K}

/-- the programs of wavelet.py do what `PipeRun` says -/
theorem jax_run {pa pb : Option (List K)} (hv : c.Valid jm J) (hG : c.Filters J true psi phi) (hbl : BL2 c.L 0 flm)
    (hpa : Jax.precompsO E jm c.L c.N c.J_min c.lam c.sampling c.nside false c.reality pa = .ok pcA)
    (hpb : Jax.precompsO E jm c.L c.N c.J_min c.lam c.sampling c.nside true c.reality pb = .ok pcS)
    (hf : E.sphForward f c.L c.spin c.nside c.sampling c.reality = .ok (flm.map C64.ofC))
    (hr : PipeRun O O true c J
      (fun j a => do
        let pc ← listGet pcA (j - c.J_min)
        E.wigInverse a (c.Lj true j) (c.Nj true j) c.nside c.sampling c.reality pc (c.L0 true j))
      (fun j p => do
        let pc ← listGet pcS (j - c.J_min)
        E.wigForward p (c.Lj true j) (c.Nj true j) c.nside c.sampling c.reality pc (c.L0 true j))
      (fun a => if c.Ls true = 1 then .ok (E.ofArr2 (a.map fun x => O.mul x (O.ofReal c1)))
        else E.sphInverse a (c.Ls true) c.spin c.nside c.sampling c.reality)
      (fun p => E.sphForward p (c.Ls true) c.spin c.nside c.sampling c.reality) psi phi flm p ps g) :
    Jax.analysisO O E c1 jm f c.L c.N c.J_min c.lam c.spin c.sampling c.nside c.reality (some (psi.map C64.ofC, phi.map F64.fin)) pa =
      .ok ((pyRange c.J_min (J + 1)).map p, ps) ∧
    Jax.synthesisO O E jm ((pyRange c.J_min (J + 1)).map p) ps c.L c.N c.J_min c.lam c.spin c.sampling c.nside c.reality
        (some (psi.map C64.ofC, phi.map F64.fin)) pb =
      E.sphInverse (g.map C64.ofC) c.L c.spin c.nside c.sampling c.reality := by
  have hJ := hv.top.hJ
  have hL := hv.top.hL
  have hlam := hv.top.hlam
  have h0 := hv.h0
  have h1 := hv.h1
  constructor
  · obtain ⟨t, A1, hp⟩ := hr.wav
    obtain ⟨a, A2, hps⟩ := hr.scal
    rw [harmW_true] at A1
    rw [harmS_true] at A2
    obtain ⟨wl, hwl⟩ : ∃ wl, einsumO_jln_l O ((psi.map C64.ofC).map O.conj) (arange (fun l => O.ofReal (O.c8 l)) 0 c.L) = .ok wl :=
      ⟨_, wav_lmO_ok O (by omega : 0 ≤ c.L) hG.r⟩
    have hloop := fusedJ O (psi := psi.map C64.ofC) (flm := flm.map C64.ofC)
      (q := fun j a => do
        let pc ← listGet pcA (j - c.J_min)
        E.wigInverse a (c.Lj true j) (c.Nj true j) c.nside c.sampling c.reality pc (c.L0 true j)) hL hlam hv.hN hv.hNL h0 (by omega) hG.d hG.r hG.cols hbl.r hbl.c hwl A1 hp
    unfold generate_and_apply_scalingO at A2
    simp only [unNone, Py.bind_ok] at A2
    obtain ⟨phi', hphi, A2⟩ := Py.bind_eq_ok.1 A2
    have hps : (if scal_bandlimit c.L c.J_min c.lam true = 1 then .ok (E.ofArr2 (a.map fun x => O.mul x (O.ofReal c1)))
        else E.sphInverse a (scal_bandlimit c.L c.J_min c.lam true) c.spin c.nside c.sampling c.reality) = .ok ps := hps
    unfold Jax.analysisO
    simp only [hpa, hJ, unNone, Py.bind_ok, hwl, hf, construct_flmnO_ok hL hv.hN hlam, hphi, A2]
    refine (congrArg (· >>= _) hloop).trans ?_
    rw [Py.bind_ok]
    by_cases hz : scal_bandlimit c.L c.J_min c.lam true = 1
    · rw [if_pos hz] at hps ⊢
      injection hps with hps
      rw [hps]
    · rw [if_neg hz] at hps ⊢
      exact (congrArg (· >>= _) hps).trans rfl
  · obtain ⟨t', s', hp, hs', hg⟩ := hr.syn
    rw [harmSum_true] at hg
    have hs' : E.sphForward ps (scal_bandlimit c.L c.J_min c.lam true) c.spin c.nside c.sampling c.reality = .ok s' := hs'
    unfold sum_over_wavelet_and_scalingO at hg
    unfold Jax.synthesisO
    have : E.sphInverse (g.map C64.ofC) c.L c.spin c.nside c.sampling c.reality =
        Except.ok (g.map C64.ofC) >>= fun g => E.sphInverse g c.L c.spin c.nside c.sampling c.reality := rfl
    rw [this, ← hg]
    simp only [hpb, hJ, unNone, Py.bind_ok, hs', bind_assoc]
    refine congrArg (_ >>= ·) (funext fun z => congrArg₂ (· >>= ·) (foldlM_congr' (fun s j hj => ?_) _) rfl)
    rw [mem_pyRange] at hj
    have := hp j hj.1 hj.2
    rw [listGet_range _ hj.1 hj.2, listGet_range _ hj.1 hj.2, Py.bind_ok, Py.bind_ok, ← bind_assoc]
    exact (congrArg (· >>= _) this).trans (Py.bind_ok _ _)

/-- **C109** `analysis` and then `synthesis` of wavelet.py in double precision, with filters whose frame sum is at most `B`: every
coefficient handed to the final inverse transform is that of the input times the frame sum, up to a relative error of norm and an absolute
error for underflow, as in C107. -/
theorem C109_jax_round_trip {pa pb : Option (List K)}
    (hpa : Jax.precompsO E jm c.L c.N c.J_min c.lam c.sampling c.nside false c.reality pa = .ok pcA)
    (hpb : Jax.precompsO E jm c.L c.N c.J_min c.lam c.sampling c.nside true c.reality pb = .ok pcS)
    (hO : O.Good) (hn : E.Near O c1 c J pcA pcS δ κ τ) (hδ : 0 ≤ δ) (hδ1 : δ ≤ 1) (hκ : 0 ≤ κ) (hκ1 : κ ≤ 2 ^ 20) (hτ : 0 ≤ τ) (hτ1 : τ ≤ 1)
    (hv : c.Valid jm J) (hL' : c.L ≤ 2 ^ 52) (hN' : c.N ≤ 2 ^ 10) (hJ : J < 2 ^ 10) (hG : c.Filters J true psi phi) {B : ℝ}
    (hB : ∀ l, 0 ≤ l → l < c.L → frameSum c.J_min J c.L psi phi l ≤ B) (hB2 : B ≤ 2)
    (hf : E.sphForward f c.L c.spin c.nside c.sampling c.reality = .ok (flm.map C64.ofC)) (hbl : BL2 c.L 0 flm) (hherm : c.reality = true → Herm2 flm)
    (hfb : ∀ l m, ‖co2 flm l m‖ ≤ 2 ^ (300 : ℤ)) :
    ∃ w s g, Jax.analysisO O E c1 jm f c.L c.N c.J_min c.lam c.spin c.sampling c.nside c.reality (some (psi.map C64.ofC, phi.map F64.fin)) pa = .ok (w, s) ∧
      Jax.synthesisO O E jm w s c.L c.N c.J_min c.lam c.spin c.sampling c.nside c.reality (some (psi.map C64.ofC, phi.map F64.fin)) pb = E.sphInverse (g.map C64.ofC) c.L c.spin c.nside c.sampling c.reality ∧
      g.r = c.L ∧ g.c = 2 * c.L - 1 ∧
      norm2 c.L (fun l m => co2 g l m - (frameSum c.J_min J c.L psi phi l : ℂ) * co2 flm l m) ≤
        B * ((1 + (c.N + J + 4) / 2 ^ 49) * (δ + κ * 2 ^ (-47 : ℤ)) + (c.N + J + 4) / 2 ^ 49) * norm2 c.L (co2 flm) +
          (2 * (J + 2) * τ + 2 ^ (-550 : ℤ)) := by
  obtain ⟨p, ps, g, hr, h⟩ := pipe_round_trip hO hO hn hδ hδ1 hκ hκ1 hτ hτ1 hv hL' hN' hJ hG hB hB2 hbl hherm hfb
  obtain ⟨h1, h2⟩ := jax_run hv hG hbl hpa hpb hf hr
  exact ⟨_, _, g, h1, h2, hr.r, hr.c, h⟩

/-- **C109** the same with the package's own filters in double precision: the coefficients of the input come back, up to a relative error
of norm. -/
theorem C109_jax_error {pa pb : Option (List K)}
    (hpa : Jax.precompsO E jm c.L c.N c.J_min c.lam c.sampling c.nside false c.reality pa = .ok pcA)
    (hpb : Jax.precompsO E jm c.L c.N c.J_min c.lam c.sampling c.nside true c.reality pb = .ok pcS)
    (hO : O.Good) (hn : E.Near O c1 c J pcA pcS δ κ τ) (hδ : 0 ≤ δ) (hδ1 : δ ≤ 1) (hκ : 0 ≤ κ) (hκ1 : κ ≤ 2 ^ 20) (hτ : 0 ≤ τ) (hτ1 : τ ≤ 1)
    (hv : c.Valid jm J) (hlam : c.lam = 2) (hL' : c.L ≤ 2 ^ 52) (hN' : c.N ≤ 990) (hJ : J ≤ 1000) (hre : c.reality = true → c.N ≤ 41) (hs : |c.spin| < c.L)
    (hF : Filt64 jm c psi phi)
    (hf : E.sphForward f c.L c.spin c.nside c.sampling c.reality = .ok (flm.map C64.ofC)) (hbl : BL2 c.L c.spin flm) (hherm : c.reality = true → Herm2 flm)
    (hfb : ∀ l m, ‖co2 flm l m‖ ≤ 2 ^ (300 : ℤ)) :
    ∃ w s g, Jax.analysisO O E c1 jm f c.L c.N c.J_min c.lam c.spin c.sampling c.nside c.reality (some (psi.map C64.ofC, phi.map F64.fin)) pa = .ok (w, s) ∧
      Jax.synthesisO O E jm w s c.L c.N c.J_min c.lam c.spin c.sampling c.nside c.reality (some (psi.map C64.ofC, phi.map F64.fin)) pb = E.sphInverse (g.map C64.ofC) c.L c.spin c.nside c.sampling c.reality ∧
      g.r = c.L ∧ g.c = 2 * c.L - 1 ∧
      norm2 c.L (fun l m => co2 g l m - co2 flm l m) ≤ (1.01 * (δ + κ * 2 ^ (-47 : ℤ)) + ownErr c J) * norm2 c.L (co2 flm) +
        (2 * (J + 2) * τ + 2 ^ (-550 : ℤ)) := by
  obtain ⟨hG, p, ps, g, hr, h⟩ := pipe_filt64 hO hO hn hδ hδ1 hκ hκ1 hτ hτ1 hv hlam hL' hN' hJ hre hs hF hbl hherm hfb
  obtain ⟨h1, h2⟩ := jax_run hv (hG true) hbl.zero_spin hpa hpb hf hr
  exact ⟨_, _, g, h1, h2, hr.r, hr.c, h⟩

end

/-! ### wavelet_precompute.py and wavelet_precompute_torch.py -/

section
variable {KW KS : Type} {E : PreFFTO C64 P KW KS} {pcA pcS : Option KS × Option KS × List KW}

/-- the programs of wavelet_precompute.py do what `PipeRun` says -/
theorem pre_run {k0A k0S : KS} (hv : c.Valid jm J) (hG : c.Filters J true psi phi) (hbl : BL2 c.L 0 flm)
    (hk : pcA.1 = some k0A) (hk' : pcS.1 = some k0S)
    (hf : E.sphForward f k0A c.L c.sampling c.reality c.spin c.nside = .ok (flm.map C64.ofC))
    (hr : PipeRun O O true c J
      (fun j a => do
        let pc ← listGet pcA.2.2 (j - c.J_min + (if j < J then 0 else -1))
        E.wigInverse a pc (c.Lj true j) (c.Nj true j) c.sampling c.reality c.nside)
      (fun j p => do
        let pc ← listGet pcS.2.2 (j - c.J_min + (if j < J then 0 else -1))
        E.wigForward p pc (c.Lj true j) (c.Nj true j) c.sampling c.reality c.nside)
      (fun a => if c.Ls true = 1 then .ok (E.ofArr2 (a.map fun x => O.mul x (O.ofReal c1)))
        else do
          let k1 ← unNone pcA.2.1
          E.sphInverse a k1 (c.Ls true) c.sampling c.reality c.spin c.nside)
      (fun p => do
        let k1 ← unNone pcS.2.1
        E.sphForward p k1 (c.Ls true) c.sampling c.reality c.spin c.nside) psi phi flm p ps g) :
    Pre.analysisO O E c1 jm f c.L c.N c.J_min c.lam c.spin c.sampling c.nside c.reality (some (psi.map C64.ofC, phi.map F64.fin)) (some pcA) =
      .ok ((pyRange c.J_min (J + 1)).map p, ps) ∧
    Pre.synthesisO O E jm ((pyRange c.J_min (J + 1)).map p) ps c.L c.N c.J_min c.lam c.spin c.sampling c.nside c.reality
        (some (psi.map C64.ofC, phi.map F64.fin)) (some pcS) =
      E.sphInverse (g.map C64.ofC) k0S c.L c.sampling c.reality c.spin c.nside := by
  have hJ := hv.top.hJ
  have hL := hv.top.hL
  have hlam := hv.top.hlam
  have h0 := hv.h0
  have h1 := hv.h1
  constructor
  · obtain ⟨t, A1, hp⟩ := hr.wav
    obtain ⟨a, A2, hps⟩ := hr.scal
    rw [harmW_true] at A1
    rw [harmS_true] at A2
    obtain ⟨wl, hwl⟩ : ∃ wl, einsumO_jln_l O ((psi.map C64.ofC).map O.conj) (arange (fun l => O.ofReal (O.c8 l)) 0 c.L) = .ok wl :=
      ⟨_, wav_lmO_ok O (by omega : 0 ≤ c.L) hG.r⟩
    have hloop := fusedJ O (psi := psi.map C64.ofC) (flm := flm.map C64.ofC)
      (q := fun j a => do
        let pc ← listGet pcA.2.2 (j - c.J_min + (if j < J then 0 else -1))
        E.wigInverse a pc (c.Lj true j) (c.Nj true j) c.sampling c.reality c.nside) hL hlam hv.hN hv.hNL h0 (by omega) hG.d hG.r hG.cols hbl.r hbl.c hwl A1 hp
    unfold generate_and_apply_scalingO at A2
    simp only [unNone, Py.bind_ok] at A2
    obtain ⟨phi', hphi, A2⟩ := Py.bind_eq_ok.1 A2
    have hps : (if scal_bandlimit c.L c.J_min c.lam true = 1 then .ok (E.ofArr2 (a.map fun x => O.mul x (O.ofReal c1)))
        else do
          let k1 ← unNone pcA.2.1
          E.sphInverse a k1 (scal_bandlimit c.L c.J_min c.lam true) c.sampling c.reality c.spin c.nside) = .ok ps := hps
    unfold Pre.analysisO
    simp only [hk, hJ, unNone, Py.bind_ok, hwl, hf, construct_flmnO_ok hL hv.hN hlam, hphi, A2]
    refine (congrArg (· >>= _) hloop).trans ?_
    rw [Py.bind_ok]
    by_cases hz : scal_bandlimit c.L c.J_min c.lam true = 1
    · rw [if_pos hz] at hps ⊢
      injection hps with hps
      rw [hps]
    · rw [if_neg hz] at hps ⊢
      exact (bind_assoc _ _ _).symm.trans ((congrArg (· >>= _) hps).trans rfl)
  · obtain ⟨t', s', hp, hs', hg⟩ := hr.syn
    rw [harmSum_true] at hg
    obtain ⟨k1, hk1, hs'⟩ := Py.bind_eq_ok.1 hs'
    have hk1 : pcS.2.1 = some k1 := by
      rcases h : pcS.2.1 with _ | x
      · rw [h] at hk1; cases hk1
      · rw [h] at hk1; injection hk1 with hk1; rw [hk1]
    have hs' : E.sphForward ps k1 (scal_bandlimit c.L c.J_min c.lam true) c.sampling c.reality c.spin c.nside = .ok s' := hs'
    unfold sum_over_wavelet_and_scalingO at hg
    unfold Pre.synthesisO
    have : E.sphInverse (g.map C64.ofC) k0S c.L c.sampling c.reality c.spin c.nside =
        Except.ok (g.map C64.ofC) >>= fun g => E.sphInverse g k0S c.L c.sampling c.reality c.spin c.nside := rfl
    rw [this, ← hg]
    simp only [hk', hJ, hk1, unNone, Py.bind_ok, hs', bind_assoc]
    refine congrArg (_ >>= ·) (funext fun z => congrArg₂ (· >>= ·) (foldlM_congr' (fun s j hj => ?_) _) rfl)
    rw [mem_pyRange] at hj
    have := hp j hj.1 hj.2
    rw [listGet_range _ hj.1 hj.2, listGet_range _ hj.1 hj.2, Py.bind_ok, Py.bind_ok, ← bind_assoc]
    exact (congrArg (· >>= _) this).trans (Py.bind_ok _ _)

/-- the programs of wavelet_precompute_torch.py do what `PipeRun` says -/
theorem torch_run {k0A k0S : KS} (hv : c.Valid jm J) (hG : c.Filters J true psi phi) (hbl : BL2 c.L 0 flm)
    (hk : pcA.1 = some k0A) (hk' : pcS.1 = some k0S)
    (hf : E.sphForward f k0A c.L c.sampling c.reality c.spin c.nside = .ok (flm.map C64.ofC))
    (hr : PipeRun O O true c J
      (fun j a => do
        let pc ← listGet pcA.2.2 (j - c.J_min + (if j < J then 0 else -1))
        E.wigInverse a pc (c.Lj true j) (c.Nj true j) c.sampling c.reality c.nside)
      (fun j p => do
        let pc ← listGet pcS.2.2 (j - c.J_min + (if j < J then 0 else -1))
        E.wigForward p pc (c.Lj true j) (c.Nj true j) c.sampling c.reality c.nside)
      (fun a => if c.Ls true = 1 then .ok (E.ofArr2 (a.map fun x => O.mul x (O.ofReal c1)))
        else do
          let k1 ← unNone pcA.2.1
          E.sphInverse a k1 (c.Ls true) c.sampling c.reality c.spin c.nside)
      (fun p => do
        let k1 ← unNone pcS.2.1
        E.sphForward p k1 (c.Ls true) c.sampling c.reality c.spin c.nside) psi phi flm p ps g) :
    Torch.analysisO O E c1 jm f c.L c.N c.J_min c.lam c.spin c.sampling c.nside c.reality (some (psi.map C64.ofC, phi.map F64.fin)) (some pcA) =
      .ok ((pyRange c.J_min (J + 1)).map p, ps) ∧
    Torch.synthesisO O E jm ((pyRange c.J_min (J + 1)).map p) ps c.L c.N c.J_min c.lam c.spin c.sampling c.nside c.reality
        (some (psi.map C64.ofC, phi.map F64.fin)) (some pcS) =
      E.sphInverse (g.map C64.ofC) k0S c.L c.sampling c.reality c.spin c.nside := by
  have hJ := hv.top.hJ
  have hL := hv.top.hL
  have hlam := hv.top.hlam
  have h0 := hv.h0
  have h1 := hv.h1
  constructor
  · obtain ⟨t, A1, hp⟩ := hr.wav
    obtain ⟨a, A2, hps⟩ := hr.scal
    rw [harmW_true] at A1
    rw [harmS_true] at A2
    obtain ⟨wl, hwl⟩ : ∃ wl, einsumO_jln_l O ((psi.map C64.ofC).map O.conj) (arange (fun l => O.ofReal (O.c8 l)) 0 c.L) = .ok wl :=
      ⟨_, wav_lmO_ok O (by omega : 0 ≤ c.L) hG.r⟩
    obtain ⟨f0, hf0, hf0'⟩ : ∃ l, construct_f_torch jm c.L c.J_min (some J) c.lam = .ok l ∧
        (l.map fun _ => E.empty) = (pyRange c.J_min (J + 1)).map fun _ => E.empty := ⟨_, rfl, by rw [List.map_map]; rfl⟩
    have hloop := fusedT O (psi := psi.map C64.ofC) (flm := flm.map C64.ofC)
      (q := fun j a => do
        let pc ← listGet pcA.2.2 (j - c.J_min + (if j < J then 0 else -1))
        E.wigInverse a pc (c.Lj true j) (c.Nj true j) c.sampling c.reality c.nside) hL hlam hv.hN hv.hNL h0 (by omega) hG.d hG.r hG.cols hbl.r hbl.c hwl A1 hp E.empty
    unfold generate_and_apply_scalingO at A2
    simp only [unNone, Py.bind_ok] at A2
    obtain ⟨phi', hphi, A2⟩ := Py.bind_eq_ok.1 A2
    have hps : (if scal_bandlimit c.L c.J_min c.lam true = 1 then .ok (E.ofArr2 (a.map fun x => O.mul x (O.ofReal c1)))
        else do
          let k1 ← unNone pcA.2.1
          E.sphInverse a k1 (scal_bandlimit c.L c.J_min c.lam true) c.sampling c.reality c.spin c.nside) = .ok ps := hps
    unfold Torch.analysisO
    simp only [hk, hJ, hf0, hf0', unNone, Py.bind_ok, hwl, hf, construct_flmnO_ok hL hv.hN hlam, hphi, A2]
    refine (congrArg (· >>= _) hloop).trans ?_
    rw [Py.bind_ok]
    by_cases hz : scal_bandlimit c.L c.J_min c.lam true = 1
    · rw [if_pos hz] at hps ⊢
      injection hps with hps
      rw [hps]
    · rw [if_neg hz] at hps ⊢
      exact (bind_assoc _ _ _).symm.trans ((congrArg (· >>= _) hps).trans rfl)
  · obtain ⟨t', s', hp, hs', hg⟩ := hr.syn
    rw [harmSum_true] at hg
    obtain ⟨k1, hk1, hs'⟩ := Py.bind_eq_ok.1 hs'
    have hk1 : pcS.2.1 = some k1 := by
      rcases h : pcS.2.1 with _ | x
      · rw [h] at hk1; cases hk1
      · rw [h] at hk1; injection hk1 with hk1; rw [hk1]
    have hs' : E.sphForward ps k1 (scal_bandlimit c.L c.J_min c.lam true) c.sampling c.reality c.spin c.nside = .ok s' := hs'
    unfold sum_over_wavelet_and_scalingO at hg
    unfold Torch.synthesisO
    have : E.sphInverse (g.map C64.ofC) k0S c.L c.sampling c.reality c.spin c.nside =
        Except.ok (g.map C64.ofC) >>= fun g => E.sphInverse g k0S c.L c.sampling c.reality c.spin c.nside := rfl
    rw [this, ← hg]
    simp only [hk', hJ, hk1, unNone, Py.bind_ok, hs', bind_assoc]
    refine congrArg (_ >>= ·) (funext fun z => congrArg₂ (· >>= ·) (foldlM_congr' (fun s j hj => ?_) _) rfl)
    rw [mem_pyRange] at hj
    simp only [sliceAtO_ok (psi.map C64.ofC) (show 0 ≤ j by omega) (show j < psi.d by have := hG.d; omega), Py.bind_ok]
    have := hp j hj.1 hj.2
    rw [listGet_range _ hj.1 hj.2, listGet_range _ hj.1 hj.2, Py.bind_ok, Py.bind_ok, ← bind_assoc]
    exact (congrArg (· >>= _) this).trans (Py.bind_ok _ _)

/-- **C109** `analysis` and then `synthesis` of wavelet_precompute.py in double precision, with filters whose frame sum is at most `B`: every
coefficient handed to the final inverse transform is that of the input times the frame sum, up to a relative error of norm and an absolute
error for underflow, as in C107. -/
theorem C109_pre_round_trip {k0A k0S : KS} (hk : pcA.1 = some k0A) (hk' : pcS.1 = some k0S)
    (hO : O.Good) (hn : E.Near O c1 c J pcA pcS δ κ τ) (hδ : 0 ≤ δ) (hδ1 : δ ≤ 1) (hκ : 0 ≤ κ) (hκ1 : κ ≤ 2 ^ 20) (hτ : 0 ≤ τ) (hτ1 : τ ≤ 1)
    (hv : c.Valid jm J) (hL' : c.L ≤ 2 ^ 52) (hN' : c.N ≤ 2 ^ 10) (hJ : J < 2 ^ 10) (hG : c.Filters J true psi phi) {B : ℝ}
    (hB : ∀ l, 0 ≤ l → l < c.L → frameSum c.J_min J c.L psi phi l ≤ B) (hB2 : B ≤ 2)
    (hf : E.sphForward f k0A c.L c.sampling c.reality c.spin c.nside = .ok (flm.map C64.ofC)) (hbl : BL2 c.L 0 flm) (hherm : c.reality = true → Herm2 flm)
    (hfb : ∀ l m, ‖co2 flm l m‖ ≤ 2 ^ (300 : ℤ)) :
    ∃ w s g, Pre.analysisO O E c1 jm f c.L c.N c.J_min c.lam c.spin c.sampling c.nside c.reality (some (psi.map C64.ofC, phi.map F64.fin)) (some pcA) = .ok (w, s) ∧
      Pre.synthesisO O E jm w s c.L c.N c.J_min c.lam c.spin c.sampling c.nside c.reality (some (psi.map C64.ofC, phi.map F64.fin)) (some pcS) = E.sphInverse (g.map C64.ofC) k0S c.L c.sampling c.reality c.spin c.nside ∧
      g.r = c.L ∧ g.c = 2 * c.L - 1 ∧
      norm2 c.L (fun l m => co2 g l m - (frameSum c.J_min J c.L psi phi l : ℂ) * co2 flm l m) ≤
        B * ((1 + (c.N + J + 4) / 2 ^ 49) * (δ + κ * 2 ^ (-47 : ℤ)) + (c.N + J + 4) / 2 ^ 49) * norm2 c.L (co2 flm) +
          (2 * (J + 2) * τ + 2 ^ (-550 : ℤ)) := by
  obtain ⟨p, ps, g, hr, h⟩ := pipe_round_trip hO hO hn hδ hδ1 hκ hκ1 hτ hτ1 hv hL' hN' hJ hG hB hB2 hbl hherm hfb
  obtain ⟨h1, h2⟩ := pre_run hv hG hbl hk hk' hf hr
  exact ⟨_, _, g, h1, h2, hr.r, hr.c, h⟩

/-- **C109** the same with the package's own filters in double precision: the coefficients of the input come back, up to a relative error
of norm. -/
theorem C109_pre_error {k0A k0S : KS} (hk : pcA.1 = some k0A) (hk' : pcS.1 = some k0S)
    (hO : O.Good) (hn : E.Near O c1 c J pcA pcS δ κ τ) (hδ : 0 ≤ δ) (hδ1 : δ ≤ 1) (hκ : 0 ≤ κ) (hκ1 : κ ≤ 2 ^ 20) (hτ : 0 ≤ τ) (hτ1 : τ ≤ 1)
    (hv : c.Valid jm J) (hlam : c.lam = 2) (hL' : c.L ≤ 2 ^ 52) (hN' : c.N ≤ 990) (hJ : J ≤ 1000) (hre : c.reality = true → c.N ≤ 41) (hs : |c.spin| < c.L)
    (hF : Filt64 jm c psi phi)
    (hf : E.sphForward f k0A c.L c.sampling c.reality c.spin c.nside = .ok (flm.map C64.ofC)) (hbl : BL2 c.L c.spin flm) (hherm : c.reality = true → Herm2 flm)
    (hfb : ∀ l m, ‖co2 flm l m‖ ≤ 2 ^ (300 : ℤ)) :
    ∃ w s g, Pre.analysisO O E c1 jm f c.L c.N c.J_min c.lam c.spin c.sampling c.nside c.reality (some (psi.map C64.ofC, phi.map F64.fin)) (some pcA) = .ok (w, s) ∧
      Pre.synthesisO O E jm w s c.L c.N c.J_min c.lam c.spin c.sampling c.nside c.reality (some (psi.map C64.ofC, phi.map F64.fin)) (some pcS) = E.sphInverse (g.map C64.ofC) k0S c.L c.sampling c.reality c.spin c.nside ∧
      g.r = c.L ∧ g.c = 2 * c.L - 1 ∧
      norm2 c.L (fun l m => co2 g l m - co2 flm l m) ≤ (1.01 * (δ + κ * 2 ^ (-47 : ℤ)) + ownErr c J) * norm2 c.L (co2 flm) +
        (2 * (J + 2) * τ + 2 ^ (-550 : ℤ)) := by
  obtain ⟨hG, p, ps, g, hr, h⟩ := pipe_filt64 hO hO hn hδ hδ1 hκ hκ1 hτ hτ1 hv hlam hL' hN' hJ hre hs hF hbl hherm hfb
  obtain ⟨h1, h2⟩ := pre_run hv (hG true) hbl.zero_spin hk hk' hf hr
  exact ⟨_, _, g, h1, h2, hr.r, hr.c, h⟩

/-- **C109** `analysis` and then `synthesis` of wavelet_precompute_torch.py in double precision, with filters whose frame sum is at most `B`: every
coefficient handed to the final inverse transform is that of the input times the frame sum, up to a relative error of norm and an absolute
error for underflow, as in C107. -/
theorem C109_torch_round_trip {k0A k0S : KS} (hk : pcA.1 = some k0A) (hk' : pcS.1 = some k0S)
    (hO : O.Good) (hn : E.Near O c1 c J pcA pcS δ κ τ) (hδ : 0 ≤ δ) (hδ1 : δ ≤ 1) (hκ : 0 ≤ κ) (hκ1 : κ ≤ 2 ^ 20) (hτ : 0 ≤ τ) (hτ1 : τ ≤ 1)
    (hv : c.Valid jm J) (hL' : c.L ≤ 2 ^ 52) (hN' : c.N ≤ 2 ^ 10) (hJ : J < 2 ^ 10) (hG : c.Filters J true psi phi) {B : ℝ}
    (hB : ∀ l, 0 ≤ l → l < c.L → frameSum c.J_min J c.L psi phi l ≤ B) (hB2 : B ≤ 2)
    (hf : E.sphForward f k0A c.L c.sampling c.reality c.spin c.nside = .ok (flm.map C64.ofC)) (hbl : BL2 c.L 0 flm) (hherm : c.reality = true → Herm2 flm)
    (hfb : ∀ l m, ‖co2 flm l m‖ ≤ 2 ^ (300 : ℤ)) :
    ∃ w s g, Torch.analysisO O E c1 jm f c.L c.N c.J_min c.lam c.spin c.sampling c.nside c.reality (some (psi.map C64.ofC, phi.map F64.fin)) (some pcA) = .ok (w, s) ∧
      Torch.synthesisO O E jm w s c.L c.N c.J_min c.lam c.spin c.sampling c.nside c.reality (some (psi.map C64.ofC, phi.map F64.fin)) (some pcS) = E.sphInverse (g.map C64.ofC) k0S c.L c.sampling c.reality c.spin c.nside ∧
      g.r = c.L ∧ g.c = 2 * c.L - 1 ∧
      norm2 c.L (fun l m => co2 g l m - (frameSum c.J_min J c.L psi phi l : ℂ) * co2 flm l m) ≤
        B * ((1 + (c.N + J + 4) / 2 ^ 49) * (δ + κ * 2 ^ (-47 : ℤ)) + (c.N + J + 4) / 2 ^ 49) * norm2 c.L (co2 flm) +
          (2 * (J + 2) * τ + 2 ^ (-550 : ℤ)) := by
  obtain ⟨p, ps, g, hr, h⟩ := pipe_round_trip hO hO hn hδ hδ1 hκ hκ1 hτ hτ1 hv hL' hN' hJ hG hB hB2 hbl hherm hfb
  obtain ⟨h1, h2⟩ := torch_run hv hG hbl hk hk' hf hr
  exact ⟨_, _, g, h1, h2, hr.r, hr.c, h⟩

/-- **C109** the same with the package's own filters in double precision: the coefficients of the input come back, up to a relative error
of norm. -/
theorem C109_torch_error {k0A k0S : KS} (hk : pcA.1 = some k0A) (hk' : pcS.1 = some k0S)
    (hO : O.Good) (hn : E.Near O c1 c J pcA pcS δ κ τ) (hδ : 0 ≤ δ) (hδ1 : δ ≤ 1) (hκ : 0 ≤ κ) (hκ1 : κ ≤ 2 ^ 20) (hτ : 0 ≤ τ) (hτ1 : τ ≤ 1)
    (hv : c.Valid jm J) (hlam : c.lam = 2) (hL' : c.L ≤ 2 ^ 52) (hN' : c.N ≤ 990) (hJ : J ≤ 1000) (hre : c.reality = true → c.N ≤ 41) (hs : |c.spin| < c.L)
    (hF : Filt64 jm c psi phi)
    (hf : E.sphForward f k0A c.L c.sampling c.reality c.spin c.nside = .ok (flm.map C64.ofC)) (hbl : BL2 c.L c.spin flm) (hherm : c.reality = true → Herm2 flm)
    (hfb : ∀ l m, ‖co2 flm l m‖ ≤ 2 ^ (300 : ℤ)) :
    ∃ w s g, Torch.analysisO O E c1 jm f c.L c.N c.J_min c.lam c.spin c.sampling c.nside c.reality (some (psi.map C64.ofC, phi.map F64.fin)) (some pcA) = .ok (w, s) ∧
      Torch.synthesisO O E jm w s c.L c.N c.J_min c.lam c.spin c.sampling c.nside c.reality (some (psi.map C64.ofC, phi.map F64.fin)) (some pcS) = E.sphInverse (g.map C64.ofC) k0S c.L c.sampling c.reality c.spin c.nside ∧
      g.r = c.L ∧ g.c = 2 * c.L - 1 ∧
      norm2 c.L (fun l m => co2 g l m - co2 flm l m) ≤ (1.01 * (δ + κ * 2 ^ (-47 : ℤ)) + ownErr c J) * norm2 c.L (co2 flm) +
        (2 * (J + 2) * τ + 2 ^ (-550 : ℤ)) := by
  obtain ⟨hG, p, ps, g, hr, h⟩ := pipe_filt64 hO hO hn hδ hδ1 hκ hκ1 hτ hτ1 hv hlam hL' hN' hJ hre hs hF hbl hherm hfb
  obtain ⟨h1, h2⟩ := torch_run hv (hG true) hbl.zero_spin hk hk' hf hr
  exact ⟨_, _, g, h1, h2, hr.r, hr.c, h⟩

end

end

/-! ### Non-vacuity -/

/-- the toy transforms of C107 as JAX transforms -/
def toyJ : JaxFFTO C64 (Arr2 C64 ⊕ Arr3 C64) Unit where
  sphForward p L spin _ _ reality := toyO.sphForward p L spin reality 0
  sphInverse a L spin _ _ reality := toyO.sphInverse a L spin reality 0
  genWigner _ _ _ _ _ _ _ := .ok ()
  wigForward p L N _ sampling reality _ L_lower := toyO.wigForward p L N L_lower sampling reality
  wigInverse t L N _ sampling reality _ L_lower := toyO.wigInverse t L N L_lower sampling reality
  ofArr2 := toyO.ofArr2

/-- the toy transforms of C107 as precompute transforms -/
def toyP : PreFFTO C64 (Arr2 C64 ⊕ Arr3 C64) Unit Unit where
  sphForward p _ L _ reality spin _ := toyO.sphForward p L spin reality 0
  sphInverse a _ L _ reality spin _ := toyO.sphInverse a L spin reality 0
  wigForward p _ L N sampling reality _ := toyO.wigForward p L N 0 sampling reality
  wigInverse t _ L N sampling reality _ := toyO.wigInverse t L N 0 sampling reality
  ofArr2 := toyO.ofArr2
  empty := .inl (Arr2.of 0 0 fun _ _ => 0)

theorem toyJ_near : toyJ.Near Ops.ieee (.of (Real.sqrt (1 / (4 * Real.pi)))) toyCfg 4 [(), (), (), ()] [(), (), (), ()] 0 1 0 := by
  refine ⟨fun j t u h0 h1 => ?_, toyCfg_near.scal⟩
  have : listGet [(), (), (), ()] (j - toyCfg.J_min) = .ok () := by
    have h0 : 1 ≤ j := h0
    have : j = 1 ∨ j = 2 ∨ j = 3 ∨ j = 4 := by omega
    rcases this with rfl | rfl | rfl | rfl <;> rfl
  simp only [this, Py.bind_ok]
  exact toyCfg_near.wav j t u h0 h1

theorem toyP_near : toyP.Near Ops.ieee (.of (Real.sqrt (1 / (4 * Real.pi)))) toyCfg 4 (some (), some (), [(), (), ()]) (some (), some (), [(), (), ()]) 0 1 0 := by
  refine ⟨fun j t u h0 h1 => ?_, toyCfg_near.scal⟩
  have : listGet [(), (), ()] (j - toyCfg.J_min + (if j < 4 then 0 else -1)) = .ok () := by
    have h0 : 1 ≤ j := h0
    have : j = 1 ∨ j = 2 ∨ j = 3 ∨ j = 4 := by omega
    rcases this with rfl | rfl | rfl | rfl <;> rfl
  simp only [this, Py.bind_ok]
  exact toyCfg_near.wav j t u h0 h1

/-- a round trip of `Y_{5,2}` in double precision with each of the three backends, `L = 16`, `N = 3`, `J_min = 1`; with wavelet.py, the
recursion coefficients are given to `analysis`, and computed by `synthesis` -/
example : ∃ (psi : Arr3 ℂ) (phi : Arr1 ℝ),
    filters_directional_vectorised64 Libm.exact lgExact j_max 16 3 1 2 0 = .ok (psi.map C64.ofC, phi.map F64.fin) ∧
    (∃ w s g, Jax.analysisO Ops.ieee toyJ (.of (Real.sqrt (1 / (4 * Real.pi)))) j_max (.inl (toyFlm.map C64.ofC))
        16 3 1 2 0 "mw" none false (some (psi.map C64.ofC, phi.map F64.fin)) (some [(), (), (), ()]) = .ok (w, s) ∧
      Jax.synthesisO Ops.ieee toyJ j_max w s 16 3 1 2 0 "mw" none false (some (psi.map C64.ofC, phi.map F64.fin)) none = .ok (.inl (g.map C64.ofC)) ∧
      norm2 16 (fun l m => co2 g l m - if l = 5 ∧ m = 2 then 1 else 0) ≤ 1 / 2 ^ 41) ∧
    (∃ w s g, Pre.analysisO Ops.ieee toyP (.of (Real.sqrt (1 / (4 * Real.pi)))) j_max (.inl (toyFlm.map C64.ofC))
        16 3 1 2 0 "mw" none false (some (psi.map C64.ofC, phi.map F64.fin)) (some (some (), some (), [(), (), ()])) = .ok (w, s) ∧
      Pre.synthesisO Ops.ieee toyP j_max w s 16 3 1 2 0 "mw" none false (some (psi.map C64.ofC, phi.map F64.fin)) (some (some (), some (), [(), (), ()])) =
        .ok (.inl (g.map C64.ofC)) ∧
      norm2 16 (fun l m => co2 g l m - if l = 5 ∧ m = 2 then 1 else 0) ≤ 1 / 2 ^ 41) ∧
    (∃ w s g, Torch.analysisO Ops.ieee toyP (.of (Real.sqrt (1 / (4 * Real.pi)))) j_max (.inl (toyFlm.map C64.ofC))
        16 3 1 2 0 "mw" none false (some (psi.map C64.ofC, phi.map F64.fin)) (some (some (), some (), [(), (), ()])) = .ok (w, s) ∧
      Torch.synthesisO Ops.ieee toyP j_max w s 16 3 1 2 0 "mw" none false (some (psi.map C64.ofC, phi.map F64.fin)) (some (some (), some (), [(), (), ()])) =
        .ok (.inl (g.map C64.ofC)) ∧
      norm2 16 (fun l m => co2 g l m - if l = 5 ∧ m = 2 then 1 else 0) ≤ 1 / 2 ^ 41) := by
  obtain ⟨psi, phi, h⟩ := toy_filters
  have hF : Filt64 j_max toyCfg psi phi := ⟨Libm.exact, Libm.exact, lgExact, Libm.exact_ok, Or.inl ⟨lgExact_special, h⟩⟩
  have e1 : norm2 toyCfg.L (co2 toyFlm) = 1 := toyFlm_norm
  have e2 : ownErr toyCfg 4 = (((3 : ℤ) : ℝ) + ((4 : ℤ) : ℝ) + 40) / 2 ^ 48 := by
    rw [ownErr, if_pos (by norm_num [toyCfg])]
    rfl
  have hg : Jax.precompsO toyJ j_max toyCfg.L toyCfg.N toyCfg.J_min toyCfg.lam toyCfg.sampling toyCfg.nside true toyCfg.reality none = .ok [(), (), (), ()] := by
    have hJ : j_max toyCfg.L toyCfg.lam = .ok 4 := toyCfg_top.hJ
    rw [Jax.precompsO, hJ]
    rfl
  refine ⟨psi, phi, h, ?_, ?_, ?_⟩
  · obtain ⟨w, s, g, h1, h2, -, -, h5⟩ := C109_jax_error (E := toyJ) (f := (.inl (toyFlm.map C64.ofC) : Arr2 C64 ⊕ Arr3 C64)) (flm := toyFlm) (pa := some [(), (), (), ()]) rfl hg C105_ieee toyJ_near
      le_rfl zero_le_one zero_le_one (by norm_num) le_rfl zero_le_one toyCfg_valid rfl (by norm_num [toyCfg]) (by norm_num [toyCfg]) (by norm_num) (by simp [toyCfg])
      (by norm_num [toyCfg]) hF toyFlm_forward toyFlm_bl (by simp [toyCfg]) toyFlm_le
    refine ⟨w, s, g, h1, h2, toy_bound ?_⟩
    simp only [← toyFlm_co]
    rw [e1, e2] at h5
    exact h5
  · obtain ⟨w, s, g, h1, h2, -, -, h5⟩ := C109_pre_error (E := toyP) (k0A := ()) (k0S := ()) (f := (.inl (toyFlm.map C64.ofC) : Arr2 C64 ⊕ Arr3 C64)) (flm := toyFlm) rfl rfl C105_ieee toyP_near
      le_rfl zero_le_one zero_le_one (by norm_num) le_rfl zero_le_one toyCfg_valid rfl (by norm_num [toyCfg]) (by norm_num [toyCfg]) (by norm_num) (by simp [toyCfg])
      (by norm_num [toyCfg]) hF toyFlm_forward toyFlm_bl (by simp [toyCfg]) toyFlm_le
    refine ⟨w, s, g, h1, h2, toy_bound ?_⟩
    simp only [← toyFlm_co]
    rw [e1, e2] at h5
    exact h5
  · obtain ⟨w, s, g, h1, h2, -, -, h5⟩ := C109_torch_error (E := toyP) (k0A := ()) (k0S := ()) (f := (.inl (toyFlm.map C64.ofC) : Arr2 C64 ⊕ Arr3 C64)) (flm := toyFlm) rfl rfl C105_ieee toyP_near
      le_rfl zero_le_one zero_le_one (by norm_num) le_rfl zero_le_one toyCfg_valid rfl (by norm_num [toyCfg]) (by norm_num [toyCfg]) (by norm_num) (by simp [toyCfg])
      (by norm_num [toyCfg]) hF toyFlm_forward toyFlm_bl (by simp [toyCfg]) toyFlm_le
    refine ⟨w, s, g, h1, h2, toy_bound ?_⟩
    simp only [← toyFlm_co]
    rw [e1, e2] at h5
    exact h5

end S2wav
