import Verif.Model.IeeeFlm
import Verif.Props.RoundedBackends

/-! # C113: `flm_to_analysis` in double precision

The four functions `flm_to_analysis` (wavelet.py, wavelet_c.py, wavelet_precompute.py, wavelet_precompute_torch.py) with everything s2wav itself
computes in any arithmetic, in particular in double precision. -/

namespace S2wav
open Classical

/-! ### exact arithmetic -/

/-- **C113** the programs over an arbitrary arithmetic are, in exact arithmetic, the programs of the exact model, on all inputs. -/
theorem C113_exact (jm : JMax) (flm : Arr2 ℂ) (L N J_min : ℤ) (J_max : Option ℤ) (lam : ℝ) (sampling : String) (nside : Option ℤ) (reality : Bool)
    (filters : Option (Arr3 ℂ)) :
    (∀ E : CFFT, flm_to_analysisO Ops.exact E.toO jm flm L N J_min J_max lam sampling reality filters =
      C.flm_to_analysis jm E flm L N J_min J_max lam sampling reality filters) ∧
    (∀ (K : Type) (E : JaxFFT K) precomps, Jax.flm_to_analysisO Ops.exact E.toO jm flm L N J_min J_max lam sampling nside reality filters precomps =
      Jax.flm_to_analysis jm E flm L N J_min J_max lam sampling nside reality filters precomps) ∧
    (∀ (KW KS : Type) (E : PreFFT KW KS) precomps shift,
      Pre.flm_to_analysisO Ops.exact E.toO jm flm L N J_min J_max lam sampling nside reality filters precomps shift =
        Pre.flm_to_analysis jm E flm L N J_min J_max lam sampling nside reality filters precomps shift) ∧
    (∀ (KW KS : Type) (E : PreFFT KW KS) precomps,
      Torch.flm_to_analysisO Ops.exact E.toO jm flm L N J_min J_max lam sampling nside reality filters precomps =
        Torch.flm_to_analysis jm E flm L N J_min J_max lam sampling nside reality filters precomps) := by
  refine ⟨fun E => ?_, fun K E precomps => ?_, fun KW KS E precomps shift => ?_, fun KW KS E precomps => ?_⟩
  · unfold flm_to_analysisO C.flm_to_analysis
    have e := fun J => (C105_exact (L := L) (N := N) (J_min := J_min) (J := J) (lam := lam) (jm := jm)).1 flm filters
    cases J_max <;> simp only [e] <;> rfl
  · unfold Jax.flm_to_analysisO Jax.flm_to_analysis
    cases precomps <;> cases J_max <;> simp only [Jax.precompsO, Construct.generate_wigner_precomputes, bind_assoc] <;> rfl
  · unfold Pre.flm_to_analysisO Pre.flm_to_analysis
    cases precomps
    · rfl
    · cases J_max <;> simp only [bind_assoc] <;> rfl
  · unfold Torch.flm_to_analysisO Torch.flm_to_analysis
    cases precomps
    · rfl
    · cases J_max <;> simp only [bind_assoc] <;> rfl

/-! ### agreement with `analysis`, to the bit -/

section
variable {α β P : Type} [Zero α] [Zero β] {O : Ops α β} {jm : JMax} {L N J_min : ℤ} {lam : ℝ} {spin : ℤ} {sampling : String} {nside : Option ℤ}
  {reality : Bool} {psi : Arr3 α} {phi : Arr1 β} {c1 : β} {f : P} {flm : Arr2 α} {w : List P} {s : P}

/-- **C113** in any arithmetic whatsoever (rounded, reordered, with infinities or NaN): if `analysis` of wavelet_c.py returns, then
`flm_to_analysis` of the coefficients it computed returns the same maps, to the bit. -/
theorem C113_same_c {E : CFFTO α P} {ix : ℕ} (hix : C.sshtIndex sampling.toLower = .ok ix)
    (hf : E.sphForward f L spin reality ix = .ok flm)
    (h : analysisO O E c1 jm f L N J_min lam spin sampling reality (some (psi, phi)) = .ok (w, s)) :
    flm_to_analysisO O E jm flm L N J_min none lam sampling reality (some psi) = .ok w := by
  unfold analysisO at h
  split at h
  · cases h
  · rw [hix, Py.bind_ok] at h
    obtain ⟨J, hJ, h⟩ := Py.bind_eq_ok.1 h
    simp only [hf, unNone, Py.bind_ok] at h
    obtain ⟨t, ht, h⟩ := Py.bind_eq_ok.1 h
    obtain ⟨a, -, h⟩ := Py.bind_eq_ok.1 h
    obtain ⟨w', hw, h⟩ := Py.bind_eq_ok.1 h
    obtain ⟨s', -, h⟩ := Py.bind_eq_ok.1 h
    injection h with h
    injection h with h1 h2
    subst h1
    unfold flm_to_analysisO
    simp only [topScaleO, hJ, Py.bind_ok, ht]
    exact hw

/-- **C113** the same for wavelet.py. -/
theorem C113_same_jax {K : Type} {E : JaxFFTO α P K} {precomps : Option (List K)}
    (hf : E.sphForward f L spin nside sampling reality = .ok flm)
    (h : Jax.analysisO O E c1 jm f L N J_min lam spin sampling nside reality (some (psi, phi)) precomps = .ok (w, s)) :
    Jax.flm_to_analysisO O E jm flm L N J_min none lam sampling nside reality (some psi) precomps = .ok w := by
  unfold Jax.analysisO at h
  obtain ⟨pc, hpc, h⟩ := Py.bind_eq_ok.1 h
  obtain ⟨J, hJ, h⟩ := Py.bind_eq_ok.1 h
  simp only [hf, unNone, Py.bind_ok] at h
  obtain ⟨wl, hwl, h⟩ := Py.bind_eq_ok.1 h
  obtain ⟨z, hz, h⟩ := Py.bind_eq_ok.1 h
  obtain ⟨st, hst, h⟩ := Py.bind_eq_ok.1 h
  obtain ⟨a, -, h⟩ := Py.bind_eq_ok.1 h
  obtain ⟨b, -, h⟩ := Py.bind_eq_ok.1 h
  have h1 : st.2 = w := by
    split at h
    · injection h with h
      exact congrArg Prod.fst h
    · obtain ⟨s', -, h⟩ := Py.bind_eq_ok.1 h
      injection h with h
      exact congrArg Prod.fst h
  subst h1
  unfold Jax.flm_to_analysisO
  simp only [topScaleO, hpc, hJ, unNone, Py.bind_ok, hwl, hz]
  refine (congrArg (· >>= _) hst).trans ?_
  rfl

/-- **C113** the same for wavelet_precompute.py. -/
theorem C113_same_pre {KW KS : Type} {E : PreFFTO α P KW KS} {pcs : Option KS × Option KS × List KW} {k0 : KS} (hk : pcs.1 = some k0)
    (hf : E.sphForward f k0 L sampling reality spin nside = .ok flm)
    (h : Pre.analysisO O E c1 jm f L N J_min lam spin sampling nside reality (some (psi, phi)) (some pcs) = .ok (w, s)) :
    Pre.flm_to_analysisO O E jm flm L N J_min none lam sampling nside reality (some psi) (some pcs) true = .ok w := by
  unfold Pre.analysisO at h
  obtain ⟨J, hJ, h⟩ := Py.bind_eq_ok.1 h
  simp only [hk, hf, unNone, Py.bind_ok] at h
  obtain ⟨wl, hwl, h⟩ := Py.bind_eq_ok.1 h
  obtain ⟨z, hz, h⟩ := Py.bind_eq_ok.1 h
  obtain ⟨st, hst, h⟩ := Py.bind_eq_ok.1 h
  obtain ⟨a, -, h⟩ := Py.bind_eq_ok.1 h
  obtain ⟨b, -, h⟩ := Py.bind_eq_ok.1 h
  have h1 : st.2 = w := by
    split at h
    · injection h with h
      exact congrArg Prod.fst h
    · obtain ⟨k1, -, h⟩ := Py.bind_eq_ok.1 h
      obtain ⟨s', -, h⟩ := Py.bind_eq_ok.1 h
      injection h with h
      exact congrArg Prod.fst h
  subst h1
  unfold Pre.flm_to_analysisO
  simp only [topScaleO, hJ, unNone, Py.bind_ok, hwl, hz, if_true]
  refine (congrArg (· >>= _) hst).trans ?_
  rfl

/-- **C113** the same for wavelet_precompute_torch.py. -/
theorem C113_same_torch {KW KS : Type} {E : PreFFTO α P KW KS} {pcs : Option KS × Option KS × List KW} {k0 : KS} (hk : pcs.1 = some k0)
    (hf : E.sphForward f k0 L sampling reality spin nside = .ok flm)
    (h : Torch.analysisO O E c1 jm f L N J_min lam spin sampling nside reality (some (psi, phi)) (some pcs) = .ok (w, s)) :
    Torch.flm_to_analysisO O E jm flm L N J_min none lam sampling nside reality (some psi) (some pcs) = .ok w := by
  unfold Torch.analysisO at h
  obtain ⟨J, hJ, h⟩ := Py.bind_eq_ok.1 h
  simp only [hk, hf, unNone, Py.bind_ok] at h
  obtain ⟨z, hz, h⟩ := Py.bind_eq_ok.1 h
  obtain ⟨z0, hz0, h⟩ := Py.bind_eq_ok.1 h
  obtain ⟨wl, hwl, h⟩ := Py.bind_eq_ok.1 h
  obtain ⟨st, hst, h⟩ := Py.bind_eq_ok.1 h
  obtain ⟨a, -, h⟩ := Py.bind_eq_ok.1 h
  obtain ⟨b, -, h⟩ := Py.bind_eq_ok.1 h
  have h1 : st.2 = w := by
    split at h
    · injection h with h
      exact congrArg Prod.fst h
    · obtain ⟨k1, -, h⟩ := Py.bind_eq_ok.1 h
      obtain ⟨s', -, h⟩ := Py.bind_eq_ok.1 h
      injection h with h
      exact congrArg Prod.fst h
  subst h1
  unfold Torch.flm_to_analysisO
  simp only [topScaleO, hJ, unNone, Py.bind_ok, hwl, hz, hz0]
  refine (congrArg (· >>= _) hst).trans ?_
  rfl

/-! ### the maps, and the argument `J_max` -/

omit [Zero β] in
/-- fewer scales, the same coefficients -/
theorem waveletsO_trunc {J J' : ℤ} (hL : 1 ≤ L) (hlam : 1 < lam) (hN : 1 ≤ N) (hNL : N ≤ L) (h0 : 0 ≤ J_min) (h1 : J_min ≤ J' + 1) (h2 : J' ≤ J)
    (hd : J < psi.d) (hr : psi.r = L) (hc : psi.c = 2 * L - 1) (hfr : flm.r = L) (hfc : flm.c = 2 * L - 1) {t : ℤ → Arr3 α}
    (ht : generate_and_apply_waveletsO O flm L N J_min J lam (some psi) = .ok ((pyRange J_min (J + 1)).map t)) :
    generate_and_apply_waveletsO O flm L N J_min J' lam (some psi) = .ok ((pyRange J_min (J' + 1)).map t) := by
  rw [waveletsO_eq O hL hlam hN hNL h0 (by omega) flm hd hr hc hfr hfc] at ht
  rw [waveletsO_eq O hL hlam hN hNL h0 h1 flm (by omega) hr hc hfr hfc]
  injection ht with ht
  exact congrArg _ (map_range_congr fun j a b => map_range_inj ht a (by omega))

omit [Zero β] in
/-- **C113** what `flm_to_analysis(J_max=J')` returns, in any arithmetic, for `J'` up to the top scale `J` (`J_max=None` is `J' = J`): for every scale up
to `J'` the inverse Wigner transform of the coefficients of that scale (`t j`, those computed with all scales), so that lowering `J_max` only
drops maps. The kernel of a scale is that at position `j - J_min`, except that the precompute versions take the one before it for the last
scale (with `_precomp_shift`, the default): C34. -/
theorem C113_maps {J J' : ℤ} (hL : 1 ≤ L) (hlam : 1 < lam) (hN : 1 ≤ N) (hNL : N ≤ L) (h0 : 0 ≤ J_min) (h1 : J_min ≤ J' + 1) (h2 : J' ≤ J)
    (hd : J < psi.d) (hr : psi.r = L) (hc : psi.c = 2 * L - 1) (hfr : flm.r = L) (hfc : flm.c = 2 * L - 1) {J_max : Option ℤ}
    (hJ : J_max = some J' ∨ J_max = none ∧ jm L lam = .ok J') {t : ℤ → Arr3 α}
    (ht : generate_and_apply_waveletsO O flm L N J_min J lam (some psi) = .ok ((pyRange J_min (J + 1)).map t)) (p : ℤ → P) :
    (∀ E : CFFTO α P,
      (∀ j, J_min ≤ j → j ≤ J' → E.wigInverse (t j) (LN_j L j N lam true).1 (LN_j L j N lam true).2.1 (LN_j L j N lam true).2.2 sampling reality = .ok (p j)) →
      flm_to_analysisO O E jm flm L N J_min J_max lam sampling reality (some psi) = .ok ((pyRange J_min (J' + 1)).map p)) ∧
    (∀ (K : Type) (E : JaxFFTO α P K) (pcs : List K),
      (∀ j, J_min ≤ j → j ≤ J' → ∃ k, pcs[(j - J_min).toNat]? = some k ∧
        E.wigInverse (t j) (LN_j L j N lam true).1 (LN_j L j N lam true).2.1 nside sampling reality k (LN_j L j N lam true).2.2 = .ok (p j)) →
      Jax.flm_to_analysisO O E jm flm L N J_min J_max lam sampling nside reality (some psi) (some pcs) = .ok ((pyRange J_min (J' + 1)).map p)) ∧
    (∀ (KW KS : Type) (E : PreFFTO α P KW KS) (pcs : Option KS × Option KS × List KW) (shift : Bool),
      (∀ j, J_min ≤ j → j ≤ J' → ∃ k, listGet pcs.2.2 (if shift = true ∧ j = J' then j - J_min - 1 else j - J_min) = .ok k ∧
        E.wigInverse (t j) k (LN_j L j N lam true).1 (LN_j L j N lam true).2.1 sampling reality nside = .ok (p j)) →
      Pre.flm_to_analysisO O E jm flm L N J_min J_max lam sampling nside reality (some psi) (some pcs) shift = .ok ((pyRange J_min (J' + 1)).map p)) ∧
    (∀ (KW KS : Type) (E : PreFFTO α P KW KS) (pcs : Option KS × Option KS × List KW),
      (∀ j, J_min ≤ j → j ≤ J' → ∃ k, listGet pcs.2.2 (if j = J' then j - J_min - 1 else j - J_min) = .ok k ∧
        E.wigInverse (t j) k (LN_j L j N lam true).1 (LN_j L j N lam true).2.1 sampling reality nside = .ok (p j)) →
      Torch.flm_to_analysisO O E jm flm L N J_min J_max lam sampling nside reality (some psi) (some pcs) = .ok ((pyRange J_min (J' + 1)).map p)) := by
  have hJ' : topScaleO jm J_max L lam = .ok J' := by rcases hJ with rfl | ⟨rfl, h⟩ <;> [rfl; exact h]
  have ht' := waveletsO_trunc hL hlam hN hNL h0 h1 h2 hd hr hc hfr hfc ht
  obtain ⟨wl, hwl⟩ : ∃ wl, einsumO_jln_l O (psi.map O.conj) (arange (fun l => O.ofReal (O.c8 l)) 0 L) = .ok wl :=
    ⟨_, wav_lmO_ok O (by omega : 0 ≤ L) hr⟩
  have hd' : J' < psi.d := by omega
  refine ⟨fun E hp => ?_, fun K E pcs hp => ?_, fun KW KS E pcs shift hp => ?_, fun KW KS E pcs hp => ?_⟩
  · unfold flm_to_analysisO
    simp only [hJ', ht', Py.bind_ok]
    refine mapM_ok fun j hj => ?_
    obtain ⟨a, b⟩ := mem_pyRange.1 hj
    rw [listGet_range _ a b, Py.bind_ok]
    exact hp j a (by omega)
  · have hloop := fusedJ O (psi := psi) (flm := flm)
      (q := fun j a => do
        let pc ← listGet pcs (j - J_min)
        E.wigInverse a (LN_j L j N lam true).1 (LN_j L j N lam true).2.1 nside sampling reality pc (LN_j L j N lam true).2.2)
      (p := p) hL hlam hN hNL h0 h1 hd' hr hc hfr hfc hwl ht' (fun j a b => by
        obtain ⟨k, hk, h⟩ := hp j a (by omega)
        simp only [listGet, if_pos (show (0 : ℤ) ≤ j - J_min by omega), hk, Py.bind_ok]
        exact h)
    unfold Jax.flm_to_analysisO
    simp only [Jax.precompsO, hJ', unNone, Py.bind_ok, hwl, construct_flmnO_ok hL hN hlam]
    refine (congrArg (· >>= _) hloop).trans ?_
    rfl
  · have hloop := fusedJ O (psi := psi) (flm := flm)
      (q := fun j a => do
        let pc ← listGet pcs.2.2 (j - J_min + (if shift then (if j < J' then 0 else -1) else 0))
        E.wigInverse a pc (LN_j L j N lam true).1 (LN_j L j N lam true).2.1 sampling reality nside)
      (p := p) hL hlam hN hNL h0 h1 hd' hr hc hfr hfc hwl ht' (fun j a b => by
        obtain ⟨k, hk, h⟩ := hp j a (by omega)
        have e : j - J_min + (if shift then (if j < J' then 0 else -1) else 0) = if shift = true ∧ j = J' then j - J_min - 1 else j - J_min := by
          cases shift
          · simp
          · by_cases hj : j = J'
            · subst hj; simp; ring
            · simp [hj, show j < J' by omega]
        simp only [e, hk, Py.bind_ok]
        exact h)
    unfold Pre.flm_to_analysisO
    simp only [hJ', unNone, Py.bind_ok, hwl, construct_flmnO_ok hL hN hlam]
    refine (congrArg (· >>= _) hloop).trans ?_
    rfl
  · obtain ⟨f0, hf0, hf0'⟩ : ∃ l, construct_f_torch jm L J_min (some J') lam = .ok l ∧
        (l.map fun _ => E.empty) = (pyRange J_min (J' + 1)).map fun _ => E.empty := ⟨_, rfl, by rw [List.map_map]; rfl⟩
    have hloop := fusedT O (psi := psi) (flm := flm)
      (q := fun j a => do
        let pc ← listGet pcs.2.2 (j - J_min + (if j < J' then 0 else -1))
        E.wigInverse a pc (LN_j L j N lam true).1 (LN_j L j N lam true).2.1 sampling reality nside)
      (p := p) hL hlam hN hNL h0 h1 hd' hr hc hfr hfc hwl ht' (fun j a b => by
        obtain ⟨k, hk, h⟩ := hp j a (by omega)
        have e : j - J_min + (if j < J' then 0 else -1) = if j = J' then j - J_min - 1 else j - J_min := by
          by_cases hj : j = J'
          · subst hj; simp; ring
          · simp [hj, show j < J' by omega]
        simp only [e, hk, Py.bind_ok]
        exact h) E.empty
    unfold Torch.flm_to_analysisO
    simp only [hJ', unNone, Py.bind_ok, hwl, construct_flmnO_ok hL hN hlam, hf0, hf0']
    refine (congrArg (· >>= _) hloop).trans ?_
    rfl

end

/-! ### double precision -/

section
variable {O : Ops C64 F64} {jm : JMax} {L N J_min J : ℤ} {lam : ℝ} {psi : Arr3 ℂ} {flm : Arr2 ℂ}

/-- **C113** in double precision, for coefficients up to `2^300` and filters up to `2^30` in modulus: the coefficients of which `flm_to_analysis` takes
the inverse Wigner transforms (C113_maps) are finite, and each is within `2^-47` (relatively; up to underflow) of that in the exact program. -/
theorem C113_error (hO : O.Good) (hL : 1 ≤ L) (hL' : L ≤ 2 ^ 52) (hlam : 1 < lam) (hN : 1 ≤ N) (hNL : N ≤ L) (h0 : 0 ≤ J_min) (h1 : J_min ≤ J + 1)
    (hd : J < psi.d) (hr : psi.r = L) (hc : psi.c = 2 * L - 1) (hfr : flm.r = L) (hfc : flm.c = 2 * L - 1)
    (hf : ∀ l m, ‖flm.v l m‖ ≤ 2 ^ (300 : ℤ)) (hpsi : ∀ j, J_min ≤ j → j ≤ J → ∀ l n, 0 ≤ l → l < L → ‖psi.v j l n‖ ≤ 2 ^ (30 : ℤ)) :
    ∃ t t' : ℤ → Arr3 ℂ,
      generate_and_apply_waveletsO Ops.exact flm L N J_min J lam (some psi) = .ok ((pyRange J_min (J + 1)).map t) ∧
      generate_and_apply_waveletsO O (flm.map C64.ofC) L N J_min J lam (some (psi.map C64.ofC)) = .ok ((pyRange J_min (J + 1)).map fun j => (t' j).map C64.ofC) ∧
      ∀ j, J_min ≤ j → j ≤ J → Near3 (2 ^ (-47 : ℤ)) (2 ^ (-690 : ℤ)) (t' j) (t j) := by
  obtain ⟨t', ht'⟩ := anaWO_double (psi := psi) hO hL' hf
  have T1 := fun j a0 a1 => ht' j (LN_j L j N lam true).1 (LN_j L j N lam true).2.1 (LN_j L j N lam true).2.2 (hpsi j a0 a1)
    (by rcases hp : LN_j L j N lam true with ⟨Lj, Nj, L0j⟩; exact (LN_bounds hL hN hNL hlam j true hp).2.2.2.2)
    (LN_j_Lj_bounds (N := N) hL hlam j true).2
  have e1 := c_wavelets_eq (jm := j_max) (J := J) hL hlam hN h0 h1 flm (fits_of_le hL hN hlam hNL J_min J true psi) hd hr hc hfr hfc
  rw [cutPsi_of_le hL hN hlam hNL] at e1
  refine ⟨fun j => anaW L (LN_j L j N lam true).1 (LN_j L j N lam true).2.1 (LN_j L j N lam true).2.2 psi j flm,
    fun j => t' j (LN_j L j N lam true).1 (LN_j L j N lam true).2.1 (LN_j L j N lam true).2.2, ?_, ?_, ?_⟩
  · rw [(C105_exact (jm := j_max)).1, e1]
    unfold anaList
    exact congrArg _ (map_range_congr fun j a b => if_pos b)
  · rw [waveletsO_eq O hL hlam hN hNL h0 h1 (flm.map C64.ofC) (psi := psi.map C64.ofC) hd hr hc hfr hfc]
    exact congrArg _ (map_range_congr fun j a b => (T1 j a (by omega)).1)
  · intro j hj0 hj1
    obtain ⟨-, a, b, c, e⟩ := T1 j hj0 hj1
    refine ⟨a, b, c, fun k l m => ?_⟩
    by_cases hl : 0 ≤ l ∧ l < (LN_j L j N lam true).1
    · refine (e k l m hl.1 hl.2).2.trans (add_le_add (mul_le_mul_of_nonneg_right pow5_le (norm_nonneg _)) ?_)
      exact tiny690 (by norm_num) (norm_nonneg _) (hf _ _)
    · show ‖_ - (anaW L _ _ _ psi j flm).v k l m‖ ≤ 2 ^ (-47 : ℤ) * ‖(anaW L _ _ _ psi j flm).v k l m‖ + _
      rw [Arr3.junk _ k l m (by rw [b]; tauto), anaW, Arr3.of_out _ _ _ _ _ _ _ (by tauto), sub_zero, norm_zero, mul_zero, zero_add]
      positivity

end

/-! ### Non-vacuity -/

/-- `flm_to_analysis` of `Y_{5,2}` in double precision with wavelet.py, wavelet_c.py and wavelet_precompute.py, `L = 16`, `N = 3`, `J_min = 1`, and filters that are all 1: all
scales (the top scale is 4), and scales 1 and 2 only, which are the first two of the four maps -/
example : ∃ t : ℤ → Arr3 C64,
    Jax.flm_to_analysisO Ops.ieee toyJ j_max (toyFlm.map C64.ofC) 16 3 1 none 2 "mw" none false
      (some ((Arr3.of 5 16 31 fun _ _ _ => 1).map C64.ofC)) (some [(), (), (), ()]) = .ok [.inr (t 1), .inr (t 2), .inr (t 3), .inr (t 4)] ∧
    Jax.flm_to_analysisO Ops.ieee toyJ j_max (toyFlm.map C64.ofC) 16 3 1 (some 2) 2 "mw" none false
      (some ((Arr3.of 5 16 31 fun _ _ _ => 1).map C64.ofC)) (some [(), (), (), ()]) = .ok [.inr (t 1), .inr (t 2)] ∧
    flm_to_analysisO Ops.ieee toyO j_max (toyFlm.map C64.ofC) 16 3 1 (some 2) 2 "mw" false
      (some ((Arr3.of 5 16 31 fun _ _ _ => 1).map C64.ofC)) = .ok [.inr (t 1), .inr (t 2)] ∧
    Pre.flm_to_analysisO Ops.ieee toyP j_max (toyFlm.map C64.ofC) 16 3 1 (some 2) 2 "mw" none false
      (some ((Arr3.of 5 16 31 fun _ _ _ => 1).map C64.ofC)) (some (none, none, [(), (), ()])) true = .ok [.inr (t 1), .inr (t 2)] := by
  have hle : ∀ l m, ‖toyFlm.v l m‖ ≤ 2 ^ (300 : ℤ) := fun l m => by
    have := toyFlm_le l (m - 15)
    rwa [co2, toyFlm_bl.r, show toyCfg.L - 1 + (m - 15) = m by show (16 : ℤ) - 1 + (m - 15) = m; ring] at this
  obtain ⟨t, t', h1, h2, -⟩ := C113_error (psi := Arr3.of 5 16 31 fun _ _ _ => 1) (flm := toyFlm) (J := 4) (J_min := 1) (N := 3) (L := 16) (lam := 2)
    C105_ieee (by norm_num) (by norm_num) (by norm_num) (by norm_num) (by norm_num) (by norm_num) (by norm_num) (by norm_num) rfl rfl rfl rfl hle
    (fun j _ _ l n _ _ => by
      have : (1 : ℝ) ≤ 2 ^ (30 : ℤ) := one_le_zpow₀ (by norm_num) (by norm_num)
      show ‖if _ then (1 : ℂ) else 0‖ ≤ _
      split_ifs
      · rwa [norm_one]
      · rw [norm_zero]; positivity)
  have key := fun (J' : ℤ) (J_max : Option ℤ) (a : 1 ≤ J') (b : J' ≤ 4) (hJ : J_max = some J' ∨ J_max = none ∧ j_max 16 2 = .ok J') =>
    C113_maps (O := Ops.ieee) (jm := j_max) (psi := (Arr3.of 5 16 31 fun _ _ _ => 1).map C64.ofC) (flm := toyFlm.map C64.ofC) (J := 4) (J' := J') (J_min := 1) (N := 3) (L := 16)
      (lam := 2) (sampling := "mw") (nside := none) (reality := false) (P := Arr2 C64 ⊕ Arr3 C64) (by norm_num) (by norm_num) (by norm_num) (by norm_num) (by norm_num)
      (by omega) b (by norm_num [Arr3.map]) rfl rfl rfl rfl hJ h2 fun j => .inr ((t' j).map C64.ofC)
  have hc : ∀ j : ℤ, 1 ≤ j → j ≤ 4 → ([(), (), (), ()] : List Unit)[(j - 1).toNat]? = some () := fun j a b => by
    have : j = 1 ∨ j = 2 ∨ j = 3 ∨ j = 4 := by omega
    rcases this with rfl | rfl | rfl | rfl <;> rfl
  refine ⟨fun j => (t' j).map C64.ofC, ?_, ?_, ?_, ?_⟩
  · exact (key 4 none (by norm_num) le_rfl (Or.inr ⟨rfl, toyCfg_top.hJ⟩)).2.1 Unit toyJ [(), (), (), ()] fun j a b => ⟨(), hc j a b, rfl⟩
  · exact (key 2 (some 2) (by norm_num) (by norm_num) (Or.inl rfl)).2.1 Unit toyJ [(), (), (), ()] fun j a b => ⟨(), hc j a (by omega), rfl⟩
  · exact (key 2 (some 2) (by norm_num) (by norm_num) (Or.inl rfl)).1 toyO fun j a b => rfl
  · refine (key 2 (some 2) (by norm_num) (by norm_num) (Or.inl rfl)).2.2.1 Unit Unit toyP (none, none, [(), (), ()]) true fun j a b => ⟨(), ?_, rfl⟩
    have : j = 1 ∨ j = 2 := by omega
    rcases this with rfl | rfl <;> rfl

/-- `C113_same_jax` applies: analysis of `Y_{5,2}` in double precision with the package's own filters -/
example : ∃ (psi : Arr3 ℂ) (w : List (Arr2 C64 ⊕ Arr3 C64)),
    Jax.flm_to_analysisO Ops.ieee toyJ j_max (toyFlm.map C64.ofC) 16 3 1 none 2 "mw" none false (some (psi.map C64.ofC)) (some [(), (), (), ()]) = .ok w := by
  obtain ⟨psi, phi, h⟩ := toy_filters
  have hF : Filt64 j_max toyCfg psi phi := ⟨Libm.exact, Libm.exact, lgExact, Libm.exact_ok, Or.inl ⟨lgExact_special, h⟩⟩
  have hg : Jax.precompsO toyJ j_max toyCfg.L toyCfg.N toyCfg.J_min toyCfg.lam toyCfg.sampling toyCfg.nside true toyCfg.reality (some [(), (), (), ()]) = .ok [(), (), (), ()] := rfl
  obtain ⟨w, s, g, h1, -⟩ := C109_jax_error (E := toyJ) (f := (.inl (toyFlm.map C64.ofC) : Arr2 C64 ⊕ Arr3 C64)) (flm := toyFlm) (pa := some [(), (), (), ()]) rfl hg C105_ieee toyJ_near
      le_rfl zero_le_one zero_le_one (by norm_num) le_rfl zero_le_one toyCfg_valid rfl (by norm_num [toyCfg]) (by norm_num [toyCfg]) (by norm_num) (by simp [toyCfg])
      (by norm_num [toyCfg]) hF toyFlm_forward toyFlm_bl (by simp [toyCfg]) toyFlm_le
  exact ⟨psi, w, C113_same_jax (E := toyJ) (spin := 0) (f := (.inl (toyFlm.map C64.ofC) : Arr2 C64 ⊕ Arr3 C64)) toyFlm_forward h1⟩

end S2wav
