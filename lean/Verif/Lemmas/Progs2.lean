import Verif.Lemmas.Progs

/-! # Program equations for the JAX, C, precompute and torch back ends -/

namespace S2wav
open Classical

section
variable {jm : JMax} {L N J J_min : ℤ} {lam : ℝ}

/-- coefficient arrays of one scale have the expected shape -/
def WShape (L N : ℤ) (lam : ℝ) (mr : Bool) (j : ℤ) (t : Arr3 ℂ) : Prop :=
  t.d = 2 * (LN_j L j N lam mr).2.1 - 1 ∧ t.r = (LN_j L j N lam mr).1 ∧ t.c = 2 * (LN_j L j N lam mr).1 - 1

/-- the top scale selected by the optional argument `J_max` of `flm_to_analysis` -/
noncomputable def topJ (jm : JMax) (J_max : Option ℤ) (L : ℤ) (lam : ℝ) : Py ℤ :=
  match J_max with | some J => .ok J | none => jm L lam

/-- The synthesis loop (clamped indexing) with its tail. -/
theorem jax_syn_loop (hL : 1 ≤ L) (hN : 1 ≤ N) (hlam : 1 < lam) (h0 : 0 ≤ J_min) (hJ : J_min ≤ J + 1)
    {psi : Arr3 ℂ} {phi : Arr1 ℝ} (hF : FltShape L J psi phi) (hNL : Fits L N J_min J lam true psi) {s : Arr2 ℂ}
    (hsr : s.r = scal_bandlimit L J_min lam true) (hsc : s.c = 2 * scal_bandlimit L J_min lam true - 1)
    (wfwd : ℤ → Py (Arr3 ℂ))
    (hw : ∀ j t, J_min ≤ j → j < J + 1 → wfwd j = .ok t → WShape L N lam true j t) {γ : Type} (K : Arr2 ℂ → Py γ) :
    ((pyRange J_min (J + 1)).foldlM (init := (Arr2.of L (2 * L - 1) fun _ _ => (0 : ℂ)))
      (fun (flm : Arr2 ℂ) (j : ℤ) => do
        let (Lj, Nj, L0j) := LN_j L j N lam true
        let temp ← wfwd j
        let w := psi.sliceAtJax j (mkSl psi.r (some L0j) (some Lj))
          (mkSl psi.c (some (L - Nj)) (some (L - 1 + Nj)) 2)
        let t := temp.slice (mkSl temp.d none none 2) (mkSl temp.r (some L0j) none) (mkSl temp.c none none)
        let e ← einsum_ln_nlm w t
        flm.addAt (mkSl flm.r (some L0j) (some Lj)) (mkSl flm.c (some (L - Lj)) (some (L - 1 + Lj))) e) >>=
      fun flm => do
        let phi ← scalPhi phi (scal_bandlimit L J_min lam true)
        let e ← einsum_lm_l s phi
        let flm ← flm.addAt (mkSl flm.r none (some (scal_bandlimit L J_min lam true)))
          (mkSl flm.c (some (L - (scal_bandlimit L J_min lam true)))
            (some (L - 1 + (scal_bandlimit L J_min lam true)))) e
        K flm) =
    ((pyRange J_min (J + 1)).mapM wfwd >>= fun t => K (synA L N J_min J lam true (cutPsi L N lam true psi) phi (nth z3 J_min t) s)) := by
  have hb := scal_bandlimit_bounds hL hlam J_min true
  simp only [scalPhi_ok hF.n hb.1 hb.2, Py.bind_ok]
  refine mapM_loop_then (a := J_min) (b := J + 1) _ (S := synPart L N J_min lam true (cutPsi L N lam true psi))
    (fun _ => z3) (by omega) (synPart_congr true _) (synPart_zero true _ _) ?_ ?_
  · intro j r hj0 hj1
    have hw := hw j
    rcases ht : wfwd j with e | t
    · rfl
    obtain ⟨t1, t2, t3⟩ := hw _ hj0 hj1 ht
    rcases hp : LN_j L j N lam true with ⟨Lj, Nj, L0j⟩
    rw [hp] at t1 t2 t3
    simp only [Py.bind_ok] at t1 t2 t3 ⊢
    rw [sliceAtJax_ok _ (by omega) (lt_of_lt_of_le hj1 hF.d)]
    refine (syn_both hL hN hlam true hNL hF.r hF.c hj0 hj1 hp t1 t2 t3 rfl).trans ?_
    rw [synPart_succ true _ hj0 r t hp]
  · intro l hl
    exact syn_tail true hsr hsc hb.1 hb.2 l _

theorem torch_syn_loop (hL : 1 ≤ L) (hN : 1 ≤ N) (hlam : 1 < lam) (h0 : 0 ≤ J_min) (hJ : J_min ≤ J + 1)
    {psi : Arr3 ℂ} {phi : Arr1 ℝ} (hF : FltShape L J psi phi) (hNL : Fits L N J_min J lam true psi) {s : Arr2 ℂ}
    (hsr : s.r = scal_bandlimit L J_min lam true) (hsc : s.c = 2 * scal_bandlimit L J_min lam true - 1)
    (wfwd : ℤ → Py (Arr3 ℂ))
    (hw : ∀ j t, J_min ≤ j → j < J + 1 → wfwd j = .ok t → WShape L N lam true j t) {γ : Type} (K : Arr2 ℂ → Py γ) :
    ((pyRange J_min (J + 1)).foldlM (init := (Arr2.of L (2 * L - 1) fun _ _ => (0 : ℂ)))
      (fun (flm : Arr2 ℂ) (j : ℤ) => do
        let (Lj, Nj, L0j) := LN_j L j N lam true
        let temp ← wfwd j
        let w ← psi.sliceAt j (mkSl psi.r (some L0j) (some Lj))
          (mkSl psi.c (some (L - Nj)) (some (L - 1 + Nj)) 2)
        let t := temp.slice (mkSl temp.d none none 2) (mkSl temp.r (some L0j) none) (mkSl temp.c none none)
        let e ← einsum_ln_nlm w t
        flm.addAt (mkSl flm.r (some L0j) (some Lj)) (mkSl flm.c (some (L - Lj)) (some (L - 1 + Lj))) e) >>=
      fun flm => do
        let phi ← scalPhi phi (scal_bandlimit L J_min lam true)
        let e ← einsum_lm_l s phi
        let flm ← flm.addAt (mkSl flm.r none (some (scal_bandlimit L J_min lam true)))
          (mkSl flm.c (some (L - (scal_bandlimit L J_min lam true)))
            (some (L - 1 + (scal_bandlimit L J_min lam true)))) e
        K flm) =
    ((pyRange J_min (J + 1)).mapM wfwd >>= fun t => K (synA L N J_min J lam true (cutPsi L N lam true psi) phi (nth z3 J_min t) s)) := by
  refine Eq.trans ?_ (jax_syn_loop hL hN hlam h0 hJ hF hNL hsr hsc wfwd hw K)
  congr 1
  refine foldlM_congr' (fun acc j hj => ?_) _
  rw [mem_pyRange] at hj
  simp only
  refine Py.bind_congr fun a _ => ?_
  rw [sliceAt_ok _ (by omega) (lt_of_lt_of_le hj.2 hF.d), Py.bind_ok,
    sliceAtJax_ok _ (by omega) (lt_of_lt_of_le hj.2 hF.d)]

theorem jax_synthesis_eq {K : Type} (hJ : jm L lam = .ok J) (hL : 1 ≤ L) (hlam : 1 < lam) (hN : 1 ≤ N)
    (h0 : 0 ≤ J_min) (h1 : J_min ≤ J + 1) (E : JaxFFT K) (f_wav : List Px) (f_scal : Px) (spin : ℤ) (sampling : String)
    (nside : Option ℤ) (reality : Bool) {psi : Arr3 ℂ} {phi : Arr1 ℝ} (hF : FltShape L J psi phi) (hNL : Fits L N J_min J lam true psi) (pcs : List K)
    (hssh : ∀ s, E.sphForward f_scal (scal_bandlimit L J_min lam true) spin nside sampling reality = .ok s →
      s.r = scal_bandlimit L J_min lam true ∧ s.c = 2 * scal_bandlimit L J_min lam true - 1)
    (hwsh : ∀ j p pc t, J_min ≤ j → j < J + 1 → listGet pcs (j - J_min) = .ok pc →
      E.wigForward p (LN_j L j N lam true).1 (LN_j L j N lam true).2.1 nside sampling reality pc
      (LN_j L j N lam true).2.2 = .ok t → WShape L N lam true j t) :
    Jax.synthesis jm E f_wav f_scal L N J_min lam spin sampling nside reality (some (psi, phi)) (some pcs) =
      specSyn (E.sphForward f_scal (scal_bandlimit L J_min lam true) spin nside sampling reality)
        (fun j => do
          let fw ← listGet f_wav (j - J_min)
          let pc ← listGet pcs (j - J_min)
          E.wigForward fw (LN_j L j N lam true).1 (LN_j L j N lam true).2.1 nside sampling reality pc
            (LN_j L j N lam true).2.2)
        (fun a => E.sphInverse a L spin nside sampling reality)
        L N J_min J lam true (cutPsi L N lam true psi) phi := by
  unfold Jax.synthesis specSyn
  simp only [hJ, Py.bind_ok, unNone, zeros2_ok hL]
  refine Py.bind_congr fun s hs => ?_
  obtain ⟨hsr, hsc⟩ := hssh s hs
  refine Eq.trans ?_ (jax_syn_loop hL hN hlam h0 h1 hF hNL hsr hsc (fun j => do
          let fw ← listGet f_wav (j - J_min)
          let pc ← listGet pcs (j - J_min)
          E.wigForward fw (LN_j L j N lam true).1 (LN_j L j N lam true).2.1 nside sampling reality pc
            (LN_j L j N lam true).2.2) ?_ (fun a => E.sphInverse a L spin nside sampling reality))
  · simp only [bind_assoc]
  · intro j t hj0 hj1 h
    obtain ⟨fw, _, h⟩ := Py.bind_eq_ok.1 h
    obtain ⟨pc, hpc, h⟩ := Py.bind_eq_ok.1 h
    exact hwsh j fw pc t hj0 hj1 hpc h

theorem jax_flm_to_analysis_eq {K : Type} {J_max : Option ℤ} (hJ : topJ jm J_max L lam = .ok J)
    (hL : 1 ≤ L) (hlam : 1 < lam) (hN : 1 ≤ N)
    (h0 : 0 ≤ J_min) (h1 : J_min ≤ J + 1) (E : JaxFFT K) (flm : Arr2 ℂ) (sampling : String) (nside : Option ℤ)
    (reality : Bool) {psi : Arr3 ℂ} (hNL : Fits L N J_min J lam true psi) (hd : J < psi.d) (hr : psi.r = L) (hc : psi.c = 2 * L - 1) (pcs : List K)
    (hfr : flm.r = L) (hfc : flm.c = 2 * L - 1) :
    Jax.flm_to_analysis jm E flm L N J_min J_max lam sampling nside reality (some psi) (some pcs) =
      specWav (fun j a => do
          let pc ← listGet pcs (j - J_min)
          E.wigInverse a (LN_j L j N lam true).1 (LN_j L j N lam true).2.1 nside sampling reality pc
            (LN_j L j N lam true).2.2)
        L N J_min J lam true (cutPsi L N lam true psi) flm := by
  have e : Jax.flm_to_analysis jm E flm L N J_min J_max lam sampling nside reality (some psi) (some pcs) =
      Jax.flm_to_analysis jm E flm L N J_min (some J) lam sampling nside reality (some psi) (some pcs) := by
    rcases J_max with _ | J'
    · have hJ : jm L lam = .ok J := hJ
      unfold Jax.flm_to_analysis
      simp only [hJ, Py.bind_ok]
    · cases hJ; rfl
  rw [e]
  unfold Jax.flm_to_analysis
  simp only [Py.bind_ok, unNone, wavLm_ok hL hr]
  simp only [(construct_flmn_jax_ok hL hN hlam jm J_min J true).1, Py.bind_ok, anaList_init true (cutPsi L N lam true psi) flm]
  refine Eq.trans ?_ ((jax_loop hL hN hlam h0 h1 hNL hfr hfc hd hc (fun j a => do
          let pc ← listGet pcs (j - J_min)
          E.wigInverse a (LN_j L j N lam true).1 (LN_j L j N lam true).2.1 nside sampling reality pc
            (LN_j L j N lam true).2.2)
    (fun w => .ok w)).trans (Py.bind_pure _))
  simp only [bind_assoc]

/-! ### C back end -/

/-- `_generate_and_apply_wavelets` in closed form -/
theorem c_wavelets_eq (hL : 1 ≤ L) (hlam : 1 < lam) (hN : 1 ≤ N)
    (h0 : 0 ≤ J_min) (h1 : J_min ≤ J + 1) (flm : Arr2 ℂ)
    {psi : Arr3 ℂ} (hNL : Fits L N J_min J lam true psi) (hd : J < psi.d) (hr : psi.r = L) (hc : psi.c = 2 * L - 1)
    (hfr : flm.r = L) (hfc : flm.c = 2 * L - 1) :
    C.generate_and_apply_wavelets jm flm L N J_min J lam (some psi) =
      .ok (anaList L N J_min J lam true (cutPsi L N lam true psi) flm (J + 1)) := by
  unfold C.generate_and_apply_wavelets
  simp only [(construct_flmn_jax_ok hL hN hlam jm J_min J true).1, Py.bind_ok, unNone, wavLm_ok hL hr,
    anaList_init true (cutPsi L N lam true psi) flm]
  refine range_loop_eq (fun i => anaList L N J_min J lam true (cutPsi L N lam true psi) flm i) h1 fun j hj0 hj1 => ?_
  rcases hp : LN_j L j N lam true with ⟨Lj, Nj, L0j⟩
  simp only
  refine Eq.trans ?_ (ana_iter_jax (J := J) hL hN hlam h0 true hNL hfr hfc hd hc hj0 hj1 hp (fun f _ => .ok f))
  refine Py.bind_congr fun a ha => Py.bind_congr fun e he => Py.bind_congr fun b hb => ?_
  rcases hs : listSet (anaList L N J_min J lam true (cutPsi L N lam true psi) flm j) (j - J_min) b with e | f
  · rfl
  rw [Py.bind_ok]
  rw [listGet_listSet hs, Py.bind_ok]

/-- `_generate_and_apply_scaling` in closed form -/
theorem c_scaling_eq (hL : 1 ≤ L) (hlam : 1 < lam) (flm : Arr2 ℂ) {phi : Arr1 ℝ} (hn : phi.n = L)
    (hfr : flm.r = L) (hfc : flm.c = 2 * L - 1) :
    C.generate_and_apply_scaling flm L J_min lam (some phi) =
      .ok (anaS L (scal_bandlimit L J_min lam true) phi flm) := by
  have hb := scal_bandlimit_bounds hL hlam J_min true
  unfold C.generate_and_apply_scaling
  simp only [unNone, Py.bind_ok, scalPhi_ok hn hb.1 hb.2]
  exact ana_scal hfr hfc hb.1 hb.2

/-- the list comprehension applying the Wigner transform to each scale -/
theorem c_apply_eq {psi : Arr3 ℂ} {flm : Arr2 ℂ} (w : ℤ → Arr3 ℂ → Py Px) :
    ((pyRange J_min (J + 1)).mapM fun j => do
      let a ← listGet (anaList L N J_min J lam true psi flm (J + 1)) (j - J_min)
      w j a) = specWav w L N J_min J lam true psi flm := by
  unfold specWav
  refine mapM_congr' fun j hj => ?_
  rw [mem_pyRange] at hj
  rcases hp : LN_j L j N lam true with ⟨Lj, Nj, L0j⟩
  rw [anaList_get' true psi flm hj.1 hj.2 hj.2 hp, Py.bind_ok]

theorem c_analysis_eq (hJ : jm L lam = .ok J) (hL : 1 ≤ L) (hlam : 1 < lam) (hN : 1 ≤ N)
    (h0 : 0 ≤ J_min) (h1 : J_min ≤ J + 1) (E : CFFT) (f : Px) (spin : ℤ) (sampling : String)
    (reality : Bool) {psi : Arr3 ℂ} {phi : Arr1 ℝ} (hF : FltShape L J psi phi) (hNL : Fits L N J_min J lam true psi) {k : ℕ}
    (hh : sampling.toLower ≠ "healpix") (hk : C.sshtIndex sampling.toLower = .ok k)
    (hsh : ∀ flm, E.sphForward f L spin reality k = .ok flm → flm.r = L ∧ flm.c = 2 * L - 1) :
    C.analysis jm E f L N J_min lam spin sampling reality (some (psi, phi)) =
      specAna (E.sphForward f L spin reality k)
        (fun j a => E.wigInverse a (LN_j L j N lam true).1 (LN_j L j N lam true).2.1 (LN_j L j N lam true).2.2
          sampling reality)
        (scalInv (scal_bandlimit L J_min lam true) fun a =>
          E.sphInverse a (scal_bandlimit L J_min lam true) spin reality k)
        L N J_min J lam true (cutPsi L N lam true psi) phi := by
  unfold C.analysis specAna
  rw [if_neg hh]
  simp only [hk, hJ, Py.bind_ok, unNone]
  refine Py.bind_congr fun flm hf => ?_
  obtain ⟨hfr, hfc⟩ := hsh flm hf
  rw [c_wavelets_eq hL hlam hN h0 h1 flm hNL hF.d hF.r hF.c hfr hfc, Py.bind_ok, c_scaling_eq hL hlam flm hF.n hfr hfc,
    Py.bind_ok]
  refine (congrArg (fun z : Py (List Px) => z >>= _) (c_apply_eq fun j a => E.wigInverse a (LN_j L j N lam true).1
    (LN_j L j N lam true).2.1 (LN_j L j N lam true).2.2 sampling reality)).trans ?_
  refine congrArg _ (funext fun st => ?_)
  unfold scalInv
  split <;> rfl

theorem c_flm_to_analysis_eq {J_max : Option ℤ} (hJ : topJ jm J_max L lam = .ok J)
    (hL : 1 ≤ L) (hlam : 1 < lam) (hN : 1 ≤ N)
    (h0 : 0 ≤ J_min) (h1 : J_min ≤ J + 1) (E : CFFT) (flm : Arr2 ℂ) (sampling : String)
    (reality : Bool) {psi : Arr3 ℂ} (hNL : Fits L N J_min J lam true psi) (hd : J < psi.d) (hr : psi.r = L) (hc : psi.c = 2 * L - 1)
    (hfr : flm.r = L) (hfc : flm.c = 2 * L - 1) :
    C.flm_to_analysis jm E flm L N J_min J_max lam sampling reality (some psi) =
      specWav (fun j a => E.wigInverse a (LN_j L j N lam true).1 (LN_j L j N lam true).2.1 (LN_j L j N lam true).2.2
          sampling reality)
        L N J_min J lam true (cutPsi L N lam true psi) flm := by
  have e : C.flm_to_analysis jm E flm L N J_min J_max lam sampling reality (some psi) =
      C.flm_to_analysis jm E flm L N J_min (some J) lam sampling reality (some psi) := by
    rcases J_max with _ | J'
    · have hJ : jm L lam = .ok J := hJ
      unfold C.flm_to_analysis
      simp only [hJ, Py.bind_ok]
    · cases hJ; rfl
  rw [e]
  unfold C.flm_to_analysis
  simp only [Py.bind_ok]
  rw [c_wavelets_eq hL hlam hN h0 h1 flm hNL hd hr hc hfr hfc, Py.bind_ok]
  exact c_apply_eq fun j a => E.wigInverse a (LN_j L j N lam true).1
    (LN_j L j N lam true).2.1 (LN_j L j N lam true).2.2 sampling reality

theorem synA_congr (mr : Bool) (psi : Arr3 ℂ) (phi : Arr1 ℝ) (s : Arr2 ℂ) (r r' : ℤ → Arr3 ℂ)
    (h : ∀ j, J_min ≤ j → j < J + 1 → r j = r' j) :
    synA L N J_min J lam mr psi phi r s = synA L N J_min J lam mr psi phi r' s := by
  unfold synA
  refine Arr2.of_congr fun l m _ _ _ _ => ?_
  congr 1
  refine Finset.sum_congr rfl fun j hj => ?_
  rw [Finset.mem_Ico] at hj
  rw [h j hj.1 hj.2]

theorem nth_map {β : Type} (d : β) (g : ℤ → β) {a b j : ℤ} (h1 : a ≤ j) (h2 : j < b) :
    nth d a ((pyRange a b).map g) j = g j := by
  have hlt : (j - a).toNat < ((pyRange a b).map g).length := by
    rw [List.length_map, length_pyRange]; omega
  rw [nth, List.getElem?_eq_getElem hlt]
  simp only [List.getElem_map, pyRange_getElem, Option.getD_some]
  congr 1; omega

/-- `_sum_over_wavelet_and_scaling` in closed form -/
theorem c_sum_eq (hL : 1 ≤ L) (hlam : 1 < lam) (hN : 1 ≤ N)
    (h0 : 0 ≤ J_min) (h1 : J_min ≤ J + 1) {psi : Arr3 ℂ} {phi : Arr1 ℝ} (hF : FltShape L J psi phi) (hNL : Fits L N J_min J lam true psi)
    {s : Arr2 ℂ} (hsr : s.r = scal_bandlimit L J_min lam true) (hsc : s.c = 2 * scal_bandlimit L J_min lam true - 1)
    {t : ℤ → Arr3 ℂ} (hw : ∀ j, J_min ≤ j → j < J + 1 → WShape L N lam true j (t j)) :
    C.sum_over_wavelet_and_scaling ((pyRange J_min (J + 1)).map t) s L N J_min J lam (some (psi, phi)) =
      .ok (synA L N J_min J lam true (cutPsi L N lam true psi) phi t s) := by
  unfold C.sum_over_wavelet_and_scaling
  simp only [Py.bind_ok, unNone, zeros2_ok hL]
  refine (jax_syn_loop hL hN hlam h0 h1 hF hNL hsr hsc
    (fun j => listGet ((pyRange J_min (J + 1)).map t) (j - J_min)) ?_ (fun a => .ok a)).trans ?_
  · intro j t' hj0 hj1 h
    rw [listGet_range _ hj0 hj1] at h
    cases h
    exact hw j hj0 hj1
  · rw [mapM_ok (g := t) fun j hj => by rw [mem_pyRange] at hj; exact listGet_range _ hj.1 hj.2, Py.bind_ok]
    congr 1
    exact synA_congr true _ phi s _ _ fun j h1 h2 => nth_map _ _ h1 h2

theorem c_synthesis_eq (hJ : jm L lam = .ok J) (hL : 1 ≤ L) (hlam : 1 < lam) (hN : 1 ≤ N)
    (h0 : 0 ≤ J_min) (h1 : J_min ≤ J + 1) (E : CFFT) (f_wav : List Px) (f_scal : Px) (spin : ℤ) (sampling : String)
    (reality : Bool) {psi : Arr3 ℂ} {phi : Arr1 ℝ} (hF : FltShape L J psi phi) (hNL : Fits L N J_min J lam true psi) {k : ℕ}
    (hh : sampling.toLower ≠ "healpix") (hk : C.sshtIndex sampling.toLower = .ok k)
    (hssh : ∀ p s, E.sphForward p (scal_bandlimit L J_min lam true) spin reality k = .ok s →
      s.r = scal_bandlimit L J_min lam true ∧ s.c = 2 * scal_bandlimit L J_min lam true - 1)
    (hwsh : ∀ j p t, E.wigForward p (LN_j L j N lam true).1 (LN_j L j N lam true).2.1 (LN_j L j N lam true).2.2
      sampling reality = .ok t → WShape L N lam true j t) :
    C.synthesis jm E f_wav f_scal L N J_min lam spin sampling reality (some (psi, phi)) =
      specSyn (E.sphForward (if reality then f_scal.re else f_scal) (scal_bandlimit L J_min lam true) spin reality k)
        (fun j => do
          let fw ← listGet f_wav (j - J_min)
          E.wigForward fw (LN_j L j N lam true).1 (LN_j L j N lam true).2.1 (LN_j L j N lam true).2.2 sampling reality)
        (fun a => E.sphInverse a L spin reality k)
        L N J_min J lam true (cutPsi L N lam true psi) phi := by
  unfold C.synthesis specSyn
  rw [if_neg hh]
  simp only [hk, hJ, Py.bind_ok]
  refine Py.bind_congr fun s hs => ?_
  obtain ⟨hsr, hsc⟩ := hssh _ s hs
  refine Py.bind_congr fun t ht => ?_
  have hE := mapM_getD ht (fun _ => z3)
  have hw : ∀ j, J_min ≤ j → j < J + 1 → WShape L N lam true j (nth z3 J_min t j) := by
    intro j hj0 hj1
    obtain ⟨hl, hel⟩ := mapM_eq_ok ht
    rw [length_pyRange] at hl
    have := hel (j - J_min).toNat (by rw [length_pyRange]; omega) (by omega)
    rw [pyRange_getElem] at this
    have e : J_min + ((j - J_min).toNat : ℤ) = j := by omega
    rw [e] at this
    obtain ⟨fw, _, h⟩ := Py.bind_eq_ok.1 this
    have e2 : nth z3 J_min t j = t[(j - J_min).toNat]'(by omega) := by
      rw [nth, List.getElem?_eq_getElem (by omega), Option.getD_some]
    rw [e2]
    exact hwsh j fw _ h
  have := c_sum_eq hL hlam hN h0 h1 hF hNL hsr hsc hw
  have e3 : (pyRange J_min (J + 1)).map (nth z3 J_min t) = t := hE
  rw [e3] at this
  rw [this, Py.bind_ok]

/-! ### precompute back ends -/

/-- the kernel selection of the precompute transforms: the last scale shares the kernel of the one before -/
noncomputable def kShift (J J_min j : ℤ) : ℤ := j - J_min + (if j < J then 0 else -1)

theorem pre_analysis_eq {KW KS : Type} (hJ : jm L lam = .ok J) (hL : 1 ≤ L) (hlam : 1 < lam) (hN : 1 ≤ N)
    (h0 : 0 ≤ J_min) (h1 : J_min ≤ J + 1) (E : PreFFT KW KS) (f : Px) (spin : ℤ) (sampling : String) (nside : Option ℤ)
    (reality : Bool) {psi : Arr3 ℂ} {phi : Arr1 ℝ} (hF : FltShape L J psi phi) (hNL : Fits L N J_min J lam true psi) (pcs : Option KS × Option KS × List KW)
    (hsh : ∀ k flm, unNone pcs.1 = .ok k → E.sphForward f k L sampling reality spin nside = .ok flm → flm.r = L ∧ flm.c = 2 * L - 1) :
    Pre.analysis jm E f L N J_min lam spin sampling nside reality (some (psi, phi)) (some pcs) =
      specAna (do
          let k0 ← unNone pcs.1
          E.sphForward f k0 L sampling reality spin nside)
        (fun j a => do
          let pc ← listGet pcs.2.2 (kShift J J_min j)
          E.wigInverse a pc (LN_j L j N lam true).1 (LN_j L j N lam true).2.1 sampling reality nside)
        (scalInv (scal_bandlimit L J_min lam true) fun a => do
          let k1 ← unNone pcs.2.1
          E.sphInverse a k1 (scal_bandlimit L J_min lam true) sampling reality spin nside)
        L N J_min J lam true (cutPsi L N lam true psi) phi := by
  have hb := scal_bandlimit_bounds hL hlam J_min true
  unfold Pre.analysis specAna
  simp only [hJ, Py.bind_ok, show unNone (some (psi, phi)) = .ok (psi, phi) from rfl, wavLm_ok hL hF.r, bind_assoc]
  refine Py.bind_congr fun k0 hk0 => Py.bind_congr fun flm hf => ?_
  obtain ⟨hfr, hfc⟩ := hsh k0 flm hk0 hf
  simp only [(construct_flmn_jax_ok hL hN hlam jm J_min J true).1, Py.bind_ok, scalPhi_ok hF.n hb.1 hb.2,
    ana_scal hfr hfc hb.1 hb.2, anaList_init true (cutPsi L N lam true psi) flm]
  refine Eq.trans ?_ (jax_loop hL hN hlam h0 h1 hNL hfr hfc hF.d hF.c (fun j a => do
          let pc ← listGet pcs.2.2 (kShift J J_min j)
          E.wigInverse a pc (LN_j L j N lam true).1 (LN_j L j N lam true).2.1 sampling reality nside)
    (fun w => do
      let s ← scalInv (scal_bandlimit L J_min lam true) (fun a => do
          let k1 ← unNone pcs.2.1
          E.sphInverse a k1 (scal_bandlimit L J_min lam true) sampling reality spin nside)
          (anaS L (scal_bandlimit L J_min lam true) phi flm)
      .ok (w, s)))
  simp only [bind_assoc]
  refine congrArg _ (funext fun st => ?_)
  unfold scalInv
  split
  · rfl
  · simp only [bind_assoc]

theorem pre_flm_to_analysis_eq {KW KS : Type} {J_max : Option ℤ} (hJ : topJ jm J_max L lam = .ok J)
    (hL : 1 ≤ L) (hlam : 1 < lam) (hN : 1 ≤ N)
    (h0 : 0 ≤ J_min) (h1 : J_min ≤ J + 1) (E : PreFFT KW KS) (flm : Arr2 ℂ) (sampling : String) (nside : Option ℤ)
    (reality : Bool) {psi : Arr3 ℂ} (hNL : Fits L N J_min J lam true psi) (hd : J < psi.d) (hr : psi.r = L) (hc : psi.c = 2 * L - 1)
    (pcs : Option KS × Option KS × List KW) (shift : Bool)
    (hfr : flm.r = L) (hfc : flm.c = 2 * L - 1) :
    Pre.flm_to_analysis jm E flm L N J_min J_max lam sampling nside reality (some psi) (some pcs) shift =
      specWav (fun j a => do
          let pc ← listGet pcs.2.2 (if shift then kShift J J_min j else j - J_min)
          E.wigInverse a pc (LN_j L j N lam true).1 (LN_j L j N lam true).2.1 sampling reality nside)
        L N J_min J lam true (cutPsi L N lam true psi) flm := by
  have e : Pre.flm_to_analysis jm E flm L N J_min J_max lam sampling nside reality (some psi) (some pcs) shift =
      Pre.flm_to_analysis jm E flm L N J_min (some J) lam sampling nside reality (some psi) (some pcs) shift := by
    rcases J_max with _ | J'
    · have hJ : jm L lam = .ok J := hJ
      unfold Pre.flm_to_analysis
      simp only [hJ, Py.bind_ok]
    · cases hJ; rfl
  rw [e]
  unfold Pre.flm_to_analysis
  simp only [Py.bind_ok, unNone, wavLm_ok hL hr]
  simp only [(construct_flmn_jax_ok hL hN hlam jm J_min J true).1, Py.bind_ok, anaList_init true (cutPsi L N lam true psi) flm]
  refine Eq.trans ?_ ((jax_loop hL hN hlam h0 h1 hNL hfr hfc hd hc (fun j a => do
          let pc ← listGet pcs.2.2 (if shift then kShift J J_min j else j - J_min)
          E.wigInverse a pc (LN_j L j N lam true).1 (LN_j L j N lam true).2.1 sampling reality nside)
    (fun w => .ok w)).trans (Py.bind_pure _))
  cases shift <;> simp only [bind_assoc, kShift, if_true, Bool.false_eq_true, if_false, add_zero]

theorem pre_synthesis_eq {KW KS : Type} (hJ : jm L lam = .ok J) (hL : 1 ≤ L) (hlam : 1 < lam) (hN : 1 ≤ N)
    (h0 : 0 ≤ J_min) (h1 : J_min ≤ J + 1) (E : PreFFT KW KS) (f_wav : List Px) (f_scal : Px) (spin : ℤ)
    (sampling : String) (nside : Option ℤ) (reality : Bool) {psi : Arr3 ℂ} {phi : Arr1 ℝ} (hF : FltShape L J psi phi) (hNL : Fits L N J_min J lam true psi)
    (pcs : Option KS × Option KS × List KW)
    (hssh : ∀ k s, unNone pcs.2.1 = .ok k →
      E.sphForward f_scal k (scal_bandlimit L J_min lam true) sampling reality spin nside = .ok s →
      s.r = scal_bandlimit L J_min lam true ∧ s.c = 2 * scal_bandlimit L J_min lam true - 1)
    (hwsh : ∀ j p pc t, J_min ≤ j → j < J + 1 → listGet pcs.2.2 (kShift J J_min j) = .ok pc →
      E.wigForward p pc (LN_j L j N lam true).1 (LN_j L j N lam true).2.1 sampling reality nside =
      .ok t → WShape L N lam true j t) :
    Pre.synthesis jm E f_wav f_scal L N J_min lam spin sampling nside reality (some (psi, phi)) (some pcs) =
      specSyn (do
          let k1 ← unNone pcs.2.1
          E.sphForward f_scal k1 (scal_bandlimit L J_min lam true) sampling reality spin nside)
        (fun j => do
          let fw ← listGet f_wav (j - J_min)
          let pc ← listGet pcs.2.2 (kShift J J_min j)
          E.wigForward fw pc (LN_j L j N lam true).1 (LN_j L j N lam true).2.1 sampling reality nside)
        (fun a => do
          let k0 ← unNone pcs.1
          E.sphInverse a k0 L sampling reality spin nside)
        L N J_min J lam true (cutPsi L N lam true psi) phi := by
  unfold Pre.synthesis specSyn
  simp only [hJ, Py.bind_ok, show unNone (some (psi, phi)) = .ok (psi, phi) from rfl, zeros2_ok hL, bind_assoc]
  refine Py.bind_congr fun k1 hk1 => Py.bind_congr fun s hs => ?_
  obtain ⟨hsr, hsc⟩ := hssh k1 s hk1 hs
  refine Eq.trans ?_ (jax_syn_loop hL hN hlam h0 h1 hF hNL hsr hsc (fun j => do
          let fw ← listGet f_wav (j - J_min)
          let pc ← listGet pcs.2.2 (kShift J J_min j)
          E.wigForward fw pc (LN_j L j N lam true).1 (LN_j L j N lam true).2.1 sampling reality nside) ?_ (fun a => do
          let k0 ← unNone pcs.1
          E.sphInverse a k0 L sampling reality spin nside))
  · simp only [bind_assoc, kShift]
  · intro j t hj0 hj1 h
    obtain ⟨fw, _, h⟩ := Py.bind_eq_ok.1 h
    obtain ⟨pc, hpc, h⟩ := Py.bind_eq_ok.1 h
    exact hwsh j fw pc t hj0 hj1 hpc h

theorem construct_f_torch_ok (jm : JMax) (L J_min J : ℤ) (lam : ℝ) :
    ∃ l, construct_f_torch jm L J_min (some J) lam = .ok l ∧
      (l.map fun _ => (⟨[0], fun _ => 0⟩ : Px)) = (pyRange J_min (J + 1)).map fun _ => (⟨[0], fun _ => 0⟩ : Px) := by
  refine ⟨_, rfl, ?_⟩
  rw [List.map_map]
  rfl

theorem torch_analysis_eq {KW KS : Type} (hJ : jm L lam = .ok J) (hL : 1 ≤ L) (hlam : 1 < lam) (hN : 1 ≤ N)
    (h0 : 0 ≤ J_min) (h1 : J_min ≤ J + 1) (E : PreFFT KW KS) (f : Px) (spin : ℤ) (sampling : String) (nside : Option ℤ)
    (reality : Bool) {psi : Arr3 ℂ} {phi : Arr1 ℝ} (hF : FltShape L J psi phi) (hNL : Fits L N J_min J lam true psi) (pcs : Option KS × Option KS × List KW)
    (hsh : ∀ k flm, unNone pcs.1 = .ok k → E.sphForward f k L sampling reality spin nside = .ok flm → flm.r = L ∧ flm.c = 2 * L - 1) :
    Torch.analysis jm E f L N J_min lam spin sampling nside reality (some (psi, phi)) (some pcs) =
      specAna (do
          let k0 ← unNone pcs.1
          E.sphForward f k0 L sampling reality spin nside)
        (fun j a => do
          let pc ← listGet pcs.2.2 (kShift J J_min j)
          E.wigInverse a pc (LN_j L j N lam true).1 (LN_j L j N lam true).2.1 sampling reality nside)
        (scalInv (scal_bandlimit L J_min lam true) fun a => do
          let k1 ← unNone pcs.2.1
          E.sphInverse a k1 (scal_bandlimit L J_min lam true) sampling reality spin nside)
        L N J_min J lam true (cutPsi L N lam true psi) phi := by
  have hb := scal_bandlimit_bounds hL hlam J_min true
  obtain ⟨l, hl, hl'⟩ := construct_f_torch_ok jm L J_min J lam
  unfold Torch.analysis specAna
  simp only [hJ, Py.bind_ok, show unNone (some (psi, phi)) = .ok (psi, phi) from rfl, wavLm_ok hL hF.r, bind_assoc,
    (construct_flmn_jax_ok hL hN hlam jm J_min J true).2, hl, hl']
  refine Py.bind_congr fun k0 hk0 => Py.bind_congr fun flm hf => ?_
  obtain ⟨hfr, hfc⟩ := hsh k0 flm hk0 hf
  simp only [Py.bind_ok, scalPhi_ok hF.n hb.1 hb.2, ana_scal hfr hfc hb.1 hb.2, anaList_init true (cutPsi L N lam true psi) flm]
  refine Eq.trans ?_ (torch_loop hL hN hlam h0 h1 hNL hfr hfc hF.d hF.c (fun j a => do
          let pc ← listGet pcs.2.2 (kShift J J_min j)
          E.wigInverse a pc (LN_j L j N lam true).1 (LN_j L j N lam true).2.1 sampling reality nside)
    (fun w => do
      let s ← scalInv (scal_bandlimit L J_min lam true) (fun a => do
          let k1 ← unNone pcs.2.1
          E.sphInverse a k1 (scal_bandlimit L J_min lam true) sampling reality spin nside)
          (anaS L (scal_bandlimit L J_min lam true) phi flm)
      .ok (w, s)))
  simp only [bind_assoc]
  refine congrArg _ (funext fun st => ?_)
  unfold scalInv
  split
  · rfl
  · simp only [bind_assoc]

theorem torch_flm_to_analysis_eq {KW KS : Type} {J_max : Option ℤ} (hJ : topJ jm J_max L lam = .ok J)
    (hL : 1 ≤ L) (hlam : 1 < lam) (hN : 1 ≤ N)
    (h0 : 0 ≤ J_min) (h1 : J_min ≤ J + 1) (E : PreFFT KW KS) (flm : Arr2 ℂ) (sampling : String) (nside : Option ℤ)
    (reality : Bool) {psi : Arr3 ℂ} (hNL : Fits L N J_min J lam true psi) (hd : J < psi.d) (hr : psi.r = L) (hc : psi.c = 2 * L - 1)
    (pcs : Option KS × Option KS × List KW)
    (hfr : flm.r = L) (hfc : flm.c = 2 * L - 1) :
    Torch.flm_to_analysis jm E flm L N J_min J_max lam sampling nside reality (some psi) (some pcs) =
      specWav (fun j a => do
          let pc ← listGet pcs.2.2 (kShift J J_min j)
          E.wigInverse a pc (LN_j L j N lam true).1 (LN_j L j N lam true).2.1 sampling reality nside)
        L N J_min J lam true (cutPsi L N lam true psi) flm := by
  obtain ⟨l, hl, hl'⟩ := construct_f_torch_ok jm L J_min J lam
  have e : Torch.flm_to_analysis jm E flm L N J_min J_max lam sampling nside reality (some psi) (some pcs) =
      Torch.flm_to_analysis jm E flm L N J_min (some J) lam sampling nside reality (some psi) (some pcs) := by
    rcases J_max with _ | J'
    · have hJ : jm L lam = .ok J := hJ
      unfold Torch.flm_to_analysis
      simp only [hJ, Py.bind_ok]
    · cases hJ; rfl
  rw [e]
  unfold Torch.flm_to_analysis
  simp only [Py.bind_ok, unNone, wavLm_ok hL hr]
  simp only [(construct_flmn_jax_ok hL hN hlam jm J_min J true).2, Py.bind_ok, hl, hl', anaList_init true (cutPsi L N lam true psi) flm]
  refine Eq.trans ?_ ((torch_loop hL hN hlam h0 h1 hNL hfr hfc hd hc (fun j a => do
          let pc ← listGet pcs.2.2 (kShift J J_min j)
          E.wigInverse a pc (LN_j L j N lam true).1 (LN_j L j N lam true).2.1 sampling reality nside)
    (fun w => .ok w)).trans (Py.bind_pure _))
  simp only [bind_assoc, kShift]

theorem torch_synthesis_eq {KW KS : Type} (hJ : jm L lam = .ok J) (hL : 1 ≤ L) (hlam : 1 < lam) (hN : 1 ≤ N)
    (h0 : 0 ≤ J_min) (h1 : J_min ≤ J + 1) (E : PreFFT KW KS) (f_wav : List Px) (f_scal : Px) (spin : ℤ)
    (sampling : String) (nside : Option ℤ) (reality : Bool) {psi : Arr3 ℂ} {phi : Arr1 ℝ} (hF : FltShape L J psi phi) (hNL : Fits L N J_min J lam true psi)
    (pcs : Option KS × Option KS × List KW)
    (hssh : ∀ k s, unNone pcs.2.1 = .ok k →
      E.sphForward f_scal k (scal_bandlimit L J_min lam true) sampling reality spin nside = .ok s →
      s.r = scal_bandlimit L J_min lam true ∧ s.c = 2 * scal_bandlimit L J_min lam true - 1)
    (hwsh : ∀ j p pc t, J_min ≤ j → j < J + 1 → listGet pcs.2.2 (kShift J J_min j) = .ok pc →
      E.wigForward p pc (LN_j L j N lam true).1 (LN_j L j N lam true).2.1 sampling reality nside =
      .ok t → WShape L N lam true j t) :
    Torch.synthesis jm E f_wav f_scal L N J_min lam spin sampling nside reality (some (psi, phi)) (some pcs) =
      specSyn (do
          let k1 ← unNone pcs.2.1
          E.sphForward f_scal k1 (scal_bandlimit L J_min lam true) sampling reality spin nside)
        (fun j => do
          let fw ← listGet f_wav (j - J_min)
          let pc ← listGet pcs.2.2 (kShift J J_min j)
          E.wigForward fw pc (LN_j L j N lam true).1 (LN_j L j N lam true).2.1 sampling reality nside)
        (fun a => do
          let k0 ← unNone pcs.1
          E.sphInverse a k0 L sampling reality spin nside)
        L N J_min J lam true (cutPsi L N lam true psi) phi := by
  unfold Torch.synthesis specSyn
  simp only [hJ, Py.bind_ok, show unNone (some (psi, phi)) = .ok (psi, phi) from rfl, zeros2_ok hL, bind_assoc]
  refine Py.bind_congr fun k1 hk1 => Py.bind_congr fun s hs => ?_
  obtain ⟨hsr, hsc⟩ := hssh k1 s hk1 hs
  refine Eq.trans ?_ (torch_syn_loop hL hN hlam h0 h1 hF hNL hsr hsc (fun j => do
          let fw ← listGet f_wav (j - J_min)
          let pc ← listGet pcs.2.2 (kShift J J_min j)
          E.wigForward fw pc (LN_j L j N lam true).1 (LN_j L j N lam true).2.1 sampling reality nside) ?_ (fun a => do
          let k0 ← unNone pcs.1
          E.sphInverse a k0 L sampling reality spin nside))
  · simp only [bind_assoc, kShift]
  · intro j t hj0 hj1 h
    obtain ⟨fw, _, h⟩ := Py.bind_eq_ok.1 h
    obtain ⟨pc, hpc, h⟩ := Py.bind_eq_ok.1 h
    exact hwsh j fw pc t hj0 hj1 hpc h

end

end S2wav
