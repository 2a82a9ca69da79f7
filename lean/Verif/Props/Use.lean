import Verif.Props.Equiv

/-! # Properties of how the routines are called: C31, C32, C33, C34, C35, C43, C44, C70 -/

namespace S2wav
open Classical

section
variable {jm : JMax} {L N J_min J : ℤ} {lam : ℝ} {spin : ℤ} {sampling : String} {nside : Option ℤ} {reality mr : Bool}
  {c : Cfg} {psi : Arr3 ℂ} {phi : Arr1 ℝ}

theorem pyAssert_ok {p : Prop} [Decidable p] : pyAssert p = .ok () ↔ p := by
  unfold pyAssert
  by_cases h : p
  · simp [h]
  · simp [h]

theorem pyAssert_err {p : Prop} [Decidable p] (h : ¬ p) : pyAssert p = .error .assertion := by
  unfold pyAssert; rw [if_neg h]

/-- a loop of checks -/
theorem foldlM_checks {α : Type} {P : α → Prop} {body : Unit → α → Py Unit} :
    ∀ (l : List α), (∀ j ∈ l, (P j → body () j = .ok ()) ∧ (¬ P j → body () j = .error .assertion)) →
    ((∀ j ∈ l, P j) → l.foldlM body () = .ok ()) ∧ ((¬ ∀ j ∈ l, P j) → l.foldlM body () = .error .assertion)
  | [], _ => ⟨fun _ => rfl, fun h => absurd (fun j hj => by cases hj) h⟩
  | i :: l, h => by
    obtain ⟨h1, h2⟩ := foldlM_checks (P := P) l fun j hj => h j (List.mem_cons_of_mem _ hj)
    obtain ⟨h3, h4⟩ := h i List.mem_cons_self
    rw [List.foldlM_cons]
    by_cases hi : P i
    · rw [h3 hi, Py.bind_ok]
      refine ⟨fun hall => h1 fun j hj => hall j (List.mem_cons_of_mem _ hj), fun hn => h2 fun hall => hn fun j hj => ?_⟩
      rcases List.mem_cons.1 hj with rfl | hj
      · exact hi
      · exact hall j hj
    · rw [h4 hi]
      exact ⟨fun hall => absurd (hall i List.mem_cons_self) hi, fun _ => rfl⟩

/-- **C31** `wavelet_shape_check` accepts exactly the inputs of the documented shapes and raises `AssertionError` on all
others. -/
theorem C31_check (hJ : jm L lam = .ok J) (E : Shapes) (w : List Px) (s : Px) {ss : List ℤ} {sw : ℤ → List ℤ}
    (hs : E.s2 (scal_bandlimit L J_min lam mr) sampling nside = .ok ss)
    (hw : ∀ j, J_min ≤ j → j ≤ J → E.so3 (LN_j L j N lam mr).1 (LN_j L j N lam mr).2.1 sampling nside = .ok (sw j)) :
    ((((w.length : ℤ) = J - J_min + 1 ∧ s.shape = ss ∧
        ∀ j, J_min ≤ j → j ≤ J → ∃ p, listGet w (j - J_min) = .ok p ∧ p.shape = sw j) →
      wavelet_shape_check jm E w s L N J_min lam sampling nside mr = .ok ()) ∧
    (¬ ((w.length : ℤ) = J - J_min + 1 ∧ s.shape = ss ∧
        ∀ j, J_min ≤ j → j ≤ J → ∃ p, listGet w (j - J_min) = .ok p ∧ p.shape = sw j) →
      wavelet_shape_check jm E w s L N J_min lam sampling nside mr = .error .assertion)) := by
  have hs' : f_scal E L J_min lam sampling nside mr = .ok ss := by
    rw [← hs]; unfold f_scal scal_bandlimit; rfl
  unfold wavelet_shape_check n_wav_scales
  simp only [hJ, Py.bind_ok, hs']
  by_cases h1 : (w.length : ℤ) = J - J_min + 1
  · rw [pyAssert_ok.2 h1, Py.bind_ok]
    by_cases h2 : s.shape = ss
    · rw [pyAssert_ok.2 h2, Py.bind_ok]
      have := foldlM_checks (P := fun j => ∃ p, listGet w (j - J_min) = .ok p ∧ p.shape = sw j)
        (body := fun _ j => do
          let f ← listGet w (j - J_min)
          let s ← f_wav_j E L j N lam sampling nside mr
          pyAssert (f.shape = s)) (pyRange J_min (J + 1)) ?_
      · constructor
        · rintro ⟨-, -, h⟩
          exact this.1 fun j hj => h j (mem_pyRange.1 hj).1 (by have := (mem_pyRange.1 hj).2; omega)
        · intro h
          exact this.2 fun hall => h ⟨h1, h2, fun j h3 h4 => hall j (mem_pyRange.2 ⟨h3, by omega⟩)⟩
      · intro j hj
        rw [mem_pyRange] at hj
        have hf : f_wav_j E L j N lam sampling nside mr = .ok (sw j) := by
          rw [← hw j hj.1 (by omega)]; rfl
        have hg := listGet_nth (d := (⟨[], fun _ => 0⟩ : Px)) (l := w) hj.1 (by omega)
        rw [hg]
        simp only [hf, Py.bind_ok]
        refine ⟨?_, fun hn => pyAssert_err fun h => hn ⟨_, rfl, h⟩⟩
        rintro ⟨p, hp, h⟩
        cases hp
        exact pyAssert_ok.2 h
    · rw [pyAssert_err h2]
      exact ⟨fun h => absurd h.2.1 h2, fun _ => rfl⟩
  · rw [pyAssert_err h1]
    exact ⟨fun h => absurd h.1 h1, fun _ => rfl⟩

/-- **C31** if the check fails, both synthesis routines raise the same error whatever s2fft does: nothing is computed. -/
theorem C31_rejected {E : BaseFFT} {w : List Px} {s : Px} {e : PyErr} {spin0 : ℤ}
    (h : wavelet_shape_check jm E.toShapes w s L N J_min lam sampling nside mr = .error e) :
    Base.synthesis jm E w s L N J_min lam spin spin0 sampling nside reality mr = .error e ∧
    Base.synthesis_looped jm E w s L N J_min lam spin spin0 sampling nside reality mr = .error e := by
  unfold Base.synthesis Base.synthesis_looped
  rw [h]
  exact ⟨rfl, rfl⟩

/-- **C31** what `base.analysis` (or the looped version) returns passes the check of the synthesis with the same arguments,
if s2fft returns arrays of the shapes it documents. -/
theorem C31_accepted (hv : c.Valid jm J) {b : Backend} {E : BaseFFT} (hb : b = .base E mr ∨ b = .looped E mr)
    (hR : b.Ready jm c) (hE : (b.engine c).Std c.reality) (hS : ShapesMatch E c) {f s : Px} {w : List Px}
    (h : b.analysis jm c f = .ok (w, s)) :
    wavelet_shape_check jm E.toShapes w s c.L c.N c.J_min c.lam c.sampling c.nside mr = .ok () := by
  have he : b.engine c = baseEngine E c := by rcases hb with rfl | rfl <;> rfl
  have hm : b.mr = mr := by rcases hb with rfl | rfl <;> rfl
  have hi : b.isBase = true := by rcases hb with rfl | rfl <;> rfl
  obtain ⟨psi, phi, hflt⟩ := filters_exist hv b
  rw [b.analysis_formula hv hR hE hflt] at h
  obtain ⟨flm, -, h⟩ := Py.bind_eq_ok.1 h
  obtain ⟨w', hw, h⟩ := Py.bind_eq_ok.1 h
  obtain ⟨s', hs, h⟩ := Py.bind_eq_ok.1 h
  cases h
  have h1 := hv.h1
  refine shape_check_ok hv.core E mr ?_ ?_ fun j hj0 hj1 => ?_
  · rw [mapM_length hw, length_pyRange]; omega
  · unfold Backend.scalI at hs
    rw [if_neg (by simp [hi]), he, hm] at hs
    exact hS.1 _ _ _ hs
  · obtain ⟨p, hp, hp'⟩ := mapM_get hw hj0 hj1
    rw [he, hm] at hp'
    exact ⟨p, hp, hS.2 _ _ _ _ _ hp'⟩

/-- accepted and rejected inputs -/
example : (∃ w s, wavelet_shape_check j_max Toy.shapes w s 3 2 0 2 "mw" none true = .ok ()) ∧
    wavelet_shape_check j_max Toy.shapes [] ⟨[1, 1], fun _ => 0⟩ 3 2 0 2 "mw" none true = .error .assertion := by
  constructor
  · obtain ⟨f, w, s, W, S, -, h, -⟩ := exRun (b := .base Toy.base true) (Or.inl ⟨true, rfl⟩) true
    have hw := exCfg_works (b := .base Toy.base true) (Or.inl ⟨true, rfl⟩) true 0
    exact ⟨w, s, C31_accepted hw.valid (Or.inl rfl) hw.ready hw.std hw.trip h⟩
  · refine (C31_check (J := 2) j_max_3_2 Toy.shapes _ _ (ss := [scal_bandlimit 3 0 2 true, 2 * scal_bandlimit 3 0 2 true - 1])
      (sw := fun j => [2 * (LN_j 3 j 2 2 true).2.1 - 1, (LN_j 3 j 2 2 true).1, 2 * (LN_j 3 j 2 2 true).1 - 1]) rfl
      (fun _ _ _ => rfl)).2 ?_
    rintro ⟨h, -⟩
    norm_num at h

/-- **C35** the precompute transforms need their precomputes -/
theorem C35_precomps {KW KS : Type} (E : PreFFT KW KS) (f s : Px) (w : List Px) (flm : Arr2 ℂ)
    (flt : Option (Arr3 ℂ × Arr1 ℝ)) (flt' : Option (Arr3 ℂ)) (J_max : Option ℤ) (shift : Bool) :
    Pre.analysis jm E f L N J_min lam spin sampling nside reality flt none = .error .valueError ∧
    Pre.synthesis jm E w s L N J_min lam spin sampling nside reality flt none = .error .valueError ∧
    Pre.flm_to_analysis jm E flm L N J_min J_max lam sampling nside reality flt' none shift = .error .valueError ∧
    Torch.analysis jm E f L N J_min lam spin sampling nside reality flt none = .error .valueError ∧
    Torch.synthesis jm E w s L N J_min lam spin sampling nside reality flt none = .error .valueError ∧
    Torch.flm_to_analysis jm E flm L N J_min J_max lam sampling nside reality flt' none = .error .valueError :=
  ⟨rfl, rfl, rfl, rfl, rfl, rfl⟩

theorem sshtIndex_ok {t : String} : (∃ k, C.sshtIndex t = .ok k) ↔ t ∈ ["mw", "mwss", "dh", "gl"] := by
  unfold C.sshtIndex
  rcases h : ["mw", "mwss", "dh", "gl"].idxOf? t with _ | i
  · rw [List.idxOf?_eq_none_iff] at h
    simp only [reduceCtorEq, exists_false, false_iff]
    exact h
  · have : ¬ t ∉ ["mw", "mwss", "dh", "gl"] := by
      intro hc
      rw [List.idxOf?_eq_none_iff.2 hc] at h; cases h
    simp only [Except.ok.injEq, exists_eq', true_iff]
    exact not_not.1 this

/-- **C35** the C transforms raise `ValueError` for healpix and for unknown samplings, in any letter case; the four
known samplings pass the check (`C.sshtIndex` finds them). -/
theorem C35_sampling (E : CFFT) (f s : Px) (w : List Px) (flt : Option (Arr3 ℂ × Arr1 ℝ)) :
    (sampling.toLower ∉ ["mw", "mwss", "dh", "gl"] →
      C.analysis jm E f L N J_min lam spin sampling reality flt = .error .valueError ∧
      C.synthesis jm E w s L N J_min lam spin sampling reality flt = .error .valueError) ∧
    (sampling.toLower ∈ ["mw", "mwss", "dh", "gl"] →
      sampling.toLower ≠ "healpix" ∧ ∃ k, C.sshtIndex sampling.toLower = .ok k) := by
  constructor
  · intro h
    have : C.sshtIndex sampling.toLower = .error .valueError := by
      unfold C.sshtIndex
      rw [List.idxOf?_eq_none_iff.2 h]
    unfold C.analysis C.synthesis
    by_cases hh : sampling.toLower = "healpix"
    · rw [if_pos hh, if_pos hh]; exact ⟨rfl, rfl⟩
    · rw [if_neg hh, if_neg hh, this]; exact ⟨rfl, rfl⟩
  · intro h
    refine ⟨?_, sshtIndex_ok.2 h⟩
    intro hc
    rw [hc] at h
    revert h
    decide

example (jm : JMax) (E : CFFT) (f : Px) : C.analysis jm E f 3 2 0 2 0 "HEALPix" true none = .error .valueError := by
  refine ((C35_sampling E f f [] none).1 ?_).1
  have : "HEALPix".toLower = "healpix" := by
    apply String.toList_inj.1; rw [String.toLower, String.toList_map]; decide
  rw [this]; decide

/-- the number by which the SSHT library knows a sampling scheme -/
def sshtCode : String → Option ℕ
  | "mw" => some 0
  | "mwss" => some 1
  | "dh" => some 2
  | "gl" => some 3
  | _ => none

/-- **C35** the spherical transforms of the SSHT library are called only with the number of the sampling asked for, in
any letter case: two libraries that agree at that number give the same results. -/
theorem C35_code {k : ℕ} {E E' : CFFT} (hk : sshtCode sampling.toLower = some k)
    (h1 : ∀ f L s r, E.sphForward f L s r k = E'.sphForward f L s r k)
    (h2 : ∀ a L s r, E.sphInverse a L s r k = E'.sphInverse a L s r k)
    (h3 : E.wigForward = E'.wigForward) (h4 : E.wigInverse = E'.wigInverse)
    (f s : Px) (w : List Px) (flt : Option (Arr3 ℂ × Arr1 ℝ)) :
    C.analysis jm E f L N J_min lam spin sampling reality flt =
      C.analysis jm E' f L N J_min lam spin sampling reality flt ∧
    C.synthesis jm E w s L N J_min lam spin sampling reality flt =
      C.synthesis jm E' w s L N J_min lam spin sampling reality flt := by
  have hidx : C.sshtIndex sampling.toLower = .ok k := by
    revert hk
    generalize sampling.toLower = t
    unfold sshtCode
    split <;> intro h <;> cases h <;> rfl
  unfold C.analysis C.synthesis
  simp only [hidx, Py.bind_ok, h1, h2, h3, h4, and_self]

/-- a library that knows only the number 2 (dh) is used successfully for dh alone -/
example (E : CFFT) (sampling : String) {k : ℕ} (hk : sshtCode sampling.toLower = some k) (h2 : k ≠ 2)
    (hE : ∀ f L s r i, i ≠ 2 → E.sphForward f L s r i = .error .valueError) (jm : JMax) (f : Px)
    (flt : Option (Arr3 ℂ × Arr1 ℝ)) :
    ∀ r, C.analysis jm E f 3 2 0 2 0 sampling true flt ≠ .ok r := by
  intro r h
  rw [(C35_code (E' := { E with sphForward := fun _ _ _ _ _ => .error .valueError }) hk
    (fun f L s r => hE f L s r k h2) (fun _ _ _ _ => rfl) rfl rfl f f [] flt).1] at h
  unfold C.analysis at h
  split_ifs at h
  obtain ⟨_, -, h⟩ := Py.bind_eq_ok.1 h
  obtain ⟨_, -, h⟩ := Py.bind_eq_ok.1 h
  cases h

example : sshtCode "DH".toLower = some 2 := by
  have : "DH".toLower = "dh" := by
    apply String.toList_inj.1; rw [String.toLower, String.toList_map]; decide
  rw [this]; rfl

/-- **C35** without filters `flm_to_analysis` always fails -/
theorem C35_filters_flm {K KW KS : Type} (E : JaxFFT K) (E' : PreFFT KW KS) (E'' : CFFT) (flm : Arr2 ℂ)
    (J_max : Option ℤ) (pcs : Option (List K)) (pcs' : Option (Option KS × Option KS × List KW)) (shift : Bool) :
    (∀ r, Jax.flm_to_analysis jm E flm L N J_min J_max lam sampling nside reality none pcs ≠ .ok r) ∧
    (∀ r, C.flm_to_analysis jm E'' flm L N J_min J_max lam sampling reality none ≠ .ok r) ∧
    (∀ r, Pre.flm_to_analysis jm E' flm L N J_min J_max lam sampling nside reality none pcs' shift ≠ .ok r) ∧
    (∀ r, Torch.flm_to_analysis jm E' flm L N J_min J_max lam sampling nside reality none pcs' ≠ .ok r) := by
  have hu : ∀ {α : Type} {a : α}, unNone (none : Option α) ≠ .ok a := by intro α a h; cases h
  refine ⟨?_, ?_, ?_, ?_⟩ <;> intro r h
  · unfold Jax.flm_to_analysis at h
    rcases pcs with _ | p <;> rcases J_max with _ | J <;> dsimp only at h <;>
    · obtain ⟨_, -, h⟩ := Py.bind_eq_ok.1 h
      obtain ⟨_, -, h⟩ := Py.bind_eq_ok.1 h
      obtain ⟨_, h, -⟩ := Py.bind_eq_ok.1 h
      exact hu h
  · unfold C.flm_to_analysis at h
    rcases J_max with _ | J <;> dsimp only at h <;>
    · obtain ⟨_, -, h⟩ := Py.bind_eq_ok.1 h
      obtain ⟨_, h, -⟩ := Py.bind_eq_ok.1 h
      unfold C.generate_and_apply_wavelets at h
      obtain ⟨_, -, h⟩ := Py.bind_eq_ok.1 h
      obtain ⟨_, h, -⟩ := Py.bind_eq_ok.1 h
      exact hu h
  · rcases pcs' with _ | p
    · cases h
    · unfold Pre.flm_to_analysis at h
      rcases J_max with _ | J <;> dsimp only at h <;>
      · obtain ⟨_, -, h⟩ := Py.bind_eq_ok.1 h
        obtain ⟨_, h, -⟩ := Py.bind_eq_ok.1 h
        exact hu h
  · rcases pcs' with _ | p
    · cases h
    · unfold Torch.flm_to_analysis at h
      rcases J_max with _ | J <;> dsimp only at h <;>
      · obtain ⟨_, -, h⟩ := Py.bind_eq_ok.1 h
        obtain ⟨_, -, h⟩ := Py.bind_eq_ok.1 h
        obtain ⟨_, -, h⟩ := Py.bind_eq_ok.1 h
        obtain ⟨_, h, -⟩ := Py.bind_eq_ok.1 h
        exact hu h

/-- **C35** without filters the JAX, C and precompute transforms always fail -/
theorem C35_filters {K KW KS : Type} (E : JaxFFT K) (E' : PreFFT KW KS) (E'' : CFFT) (f s : Px) (w : List Px)
    (pcs : Option (List K)) (pcs' : Option (Option KS × Option KS × List KW)) :
    (∀ r, Jax.analysis jm E f L N J_min lam spin sampling nside reality none pcs ≠ .ok r) ∧
    (∀ r, Jax.synthesis jm E w s L N J_min lam spin sampling nside reality none pcs ≠ .ok r) ∧
    (∀ r, C.analysis jm E'' f L N J_min lam spin sampling reality none ≠ .ok r) ∧
    (∀ r, C.synthesis jm E'' w s L N J_min lam spin sampling reality none ≠ .ok r) ∧
    (∀ r, Pre.analysis jm E' f L N J_min lam spin sampling nside reality none pcs' ≠ .ok r) ∧
    (∀ r, Pre.synthesis jm E' w s L N J_min lam spin sampling nside reality none pcs' ≠ .ok r) ∧
    (∀ r, Torch.analysis jm E' f L N J_min lam spin sampling nside reality none pcs' ≠ .ok r) ∧
    (∀ r, Torch.synthesis jm E' w s L N J_min lam spin sampling nside reality none pcs' ≠ .ok r) := by
  have hu : ∀ {α : Type} {a : α}, unNone (none : Option α) ≠ .ok a := by intro α a h; cases h
  refine ⟨?_, ?_, ?_, ?_, ?_, ?_, ?_, ?_⟩ <;> intro r h
  · have key : ∀ p, Jax.analysis jm E f L N J_min lam spin sampling nside reality none (some p) ≠ .ok r := by
      intro p h
      unfold Jax.analysis at h
      dsimp only at h
      obtain ⟨_, -, h⟩ := Py.bind_eq_ok.1 h
      obtain ⟨_, -, h⟩ := Py.bind_eq_ok.1 h
      obtain ⟨_, h, -⟩ := Py.bind_eq_ok.1 h
      exact hu h
    rcases pcs with _ | p
    · rw [jax_analysis_none] at h
      obtain ⟨p, -, h⟩ := Py.bind_eq_ok.1 h
      exact key p h
    · exact key p h
  · have key : ∀ p, Jax.synthesis jm E w s L N J_min lam spin sampling nside reality none (some p) ≠ .ok r := by
      intro p h
      unfold Jax.synthesis at h
      dsimp only at h
      obtain ⟨_, -, h⟩ := Py.bind_eq_ok.1 h
      obtain ⟨_, -, h⟩ := Py.bind_eq_ok.1 h
      obtain ⟨_, -, h⟩ := Py.bind_eq_ok.1 h
      obtain ⟨_, -, h⟩ := Py.bind_eq_ok.1 h
      obtain ⟨_, -, h⟩ := Py.bind_eq_ok.1 h
      obtain ⟨_, h, -⟩ := Py.bind_eq_ok.1 h
      exact hu h
    rcases pcs with _ | p
    · have e : Jax.synthesis jm E w s L N J_min lam spin sampling nside reality none none =
          (Construct.generate_wigner_precomputes jm E L N J_min lam sampling nside true reality >>= fun p =>
            Jax.synthesis jm E w s L N J_min lam spin sampling nside reality none (some p)) := rfl
      rw [e] at h
      obtain ⟨p, -, h⟩ := Py.bind_eq_ok.1 h
      exact key p h
    · exact key p h
  · unfold C.analysis at h
    split_ifs at h
    obtain ⟨_, -, h⟩ := Py.bind_eq_ok.1 h
    obtain ⟨_, -, h⟩ := Py.bind_eq_ok.1 h
    obtain ⟨_, -, h⟩ := Py.bind_eq_ok.1 h
    obtain ⟨_, h, -⟩ := Py.bind_eq_ok.1 h
    exact hu h
  · unfold C.synthesis at h
    by_cases hh : sampling.toLower = "healpix"
    · rw [if_pos hh] at h; cases h
    rw [if_neg hh] at h
    obtain ⟨_, -, h⟩ := Py.bind_eq_ok.1 h
    obtain ⟨_, -, h⟩ := Py.bind_eq_ok.1 h
    obtain ⟨_, -, h⟩ := Py.bind_eq_ok.1 h
    obtain ⟨_, -, h⟩ := Py.bind_eq_ok.1 h
    obtain ⟨_, h, -⟩ := Py.bind_eq_ok.1 h
    unfold C.sum_over_wavelet_and_scaling at h
    obtain ⟨_, -, h⟩ := Py.bind_eq_ok.1 h
    obtain ⟨_, -, h⟩ := Py.bind_eq_ok.1 h
    obtain ⟨_, h, -⟩ := Py.bind_eq_ok.1 h
    exact hu h
  · rcases pcs' with _ | pcs'
    · cases h
    unfold Pre.analysis at h
    obtain ⟨_, -, h⟩ := Py.bind_eq_ok.1 h
    obtain ⟨_, h, -⟩ := Py.bind_eq_ok.1 h
    exact hu h
  · rcases pcs' with _ | pcs'
    · cases h
    unfold Pre.synthesis at h
    obtain ⟨_, -, h⟩ := Py.bind_eq_ok.1 h
    obtain ⟨_, -, h⟩ := Py.bind_eq_ok.1 h
    obtain ⟨_, -, h⟩ := Py.bind_eq_ok.1 h
    obtain ⟨_, -, h⟩ := Py.bind_eq_ok.1 h
    obtain ⟨_, -, h⟩ := Py.bind_eq_ok.1 h
    obtain ⟨_, h, -⟩ := Py.bind_eq_ok.1 h
    exact hu h
  · rcases pcs' with _ | pcs'
    · cases h
    unfold Torch.analysis at h
    obtain ⟨_, -, h⟩ := Py.bind_eq_ok.1 h
    obtain ⟨_, -, h⟩ := Py.bind_eq_ok.1 h
    obtain ⟨_, -, h⟩ := Py.bind_eq_ok.1 h
    obtain ⟨_, h, -⟩ := Py.bind_eq_ok.1 h
    exact hu h
  · rcases pcs' with _ | pcs'
    · cases h
    unfold Torch.synthesis at h
    obtain ⟨_, -, h⟩ := Py.bind_eq_ok.1 h
    obtain ⟨_, -, h⟩ := Py.bind_eq_ok.1 h
    obtain ⟨_, -, h⟩ := Py.bind_eq_ok.1 h
    obtain ⟨_, -, h⟩ := Py.bind_eq_ok.1 h
    obtain ⟨_, -, h⟩ := Py.bind_eq_ok.1 h
    obtain ⟨_, h, -⟩ := Py.bind_eq_ok.1 h
    exact hu h

/-! ### flm_to_analysis -/

theorem pyRange_take {a b b' : ℤ} (h : b' ≤ b) : (pyRange a b).take (b' - a).toNat = pyRange a b' := by
  rw [pyRange_one, pyRange_one, ← List.map_take, List.take_range, min_eq_left (by omega)]

theorem mapM_take {α β : Type} {m : α → Py β} : ∀ (l : List α) {r : List β} (n : ℕ), l.mapM m = .ok r →
    (l.take n).mapM m = .ok (r.take n)
  | [], r, n, h => by cases h; simp
  | i :: l, r, 0, h => by simp
  | i :: l, r, n + 1, h => by
    rw [List.mapM_cons] at h
    obtain ⟨x, hx, h⟩ := Py.bind_eq_ok.1 h
    obtain ⟨y, hy, h⟩ := Py.bind_eq_ok.1 h
    cases h
    rw [List.take_succ_cons, List.mapM_cons, hx, Py.bind_ok, mapM_take l n hy]
    rfl

theorem specAna_wav {fwd : Py (Arr2 ℂ)} {winv : ℤ → Arr3 ℂ → Py Px} {sinv : Arr2 ℂ → Py Px} {w : List Px} {s : Px} {flm : Arr2 ℂ}
    (hf : fwd = .ok flm) (h : specAna fwd winv sinv L N J_min J lam mr psi phi = .ok (w, s)) {J' : ℤ} (hJ' : J' ≤ J)
    {winv' : ℤ → Arr3 ℂ → Py Px} (hw : ∀ j a, J_min ≤ j → j ≤ J' → winv' j a = winv j a) :
    specWav winv' L N J_min J' lam mr psi flm = .ok (w.take (J' + 1 - J_min).toNat) := by
  unfold specAna at h
  rw [hf, Py.bind_ok] at h
  obtain ⟨w', hw', h⟩ := Py.bind_eq_ok.1 h
  obtain ⟨_, -, h⟩ := Py.bind_eq_ok.1 h
  cases h
  have := mapM_take _ (J' + 1 - J_min).toNat hw'
  rw [pyRange_take (by omega)] at this
  unfold specWav
  rw [← this]
  refine mapM_congr' fun j hj => ?_
  rw [mem_pyRange] at hj
  exact hw j _ hj.1 (by omega)

theorem topJ_le {J_max : Option ℤ} (hJ : jm L lam = .ok J) (hm : ∀ J', J_max = some J' → J' ≤ J) :
    ∃ J', topJ jm J_max L lam = .ok J' ∧ J' ≤ J ∧ J' = J_max.getD J := by
  rcases J_max with _ | J'
  · exact ⟨J, hJ, le_rfl, rfl⟩
  · exact ⟨J', rfl, hm _ rfl, rfl⟩

/-- **C33** (JAX) `flm_to_analysis` of the harmonic transform of `f` gives the wavelet part of `analysis(f)`; with `J_max`
it gives the scales up to `J_max` of it.  Any filters of the right shape, any precomputes. -/
theorem C33_jax {K : Type} (E : JaxFFT K) (hJ : jm L lam = .ok J) (hL : 1 ≤ L) (hlam : 1 < lam) (hN : 1 ≤ N) (hNL : N ≤ L)
    (h0 : 0 ≤ J_min) {J_max : Option ℤ} (hm : ∀ J', J_max = some J' → J' ≤ J) (hm0 : J_min ≤ J_max.getD J + 1)
    (hd : J < psi.d) (hr : psi.r = L) (hc : psi.c = 2 * L - 1) (hn : phi.n = L)
    {f s : Px} {flm : Arr2 ℂ} {w : List Px} {pcs : List K} (hf : E.sphForward f L spin nside sampling reality = .ok flm)
    (hfr : flm.r = L) (hfc : flm.c = 2 * L - 1)
    (h : Jax.analysis jm E f L N J_min lam spin sampling nside reality (some (psi, phi)) (some pcs) = .ok (w, s)) :
    Jax.flm_to_analysis jm E flm L N J_min J_max lam sampling nside reality (some psi) (some pcs) =
      .ok (w.take (J_max.getD J + 1 - J_min).toNat) := by
  obtain ⟨J', hJ', hle, he⟩ := topJ_le hJ hm
  rw [← he] at hm0 ⊢
  rw [jax_analysis_eq hJ hL hlam hN h0 (by omega) E f spin sampling nside reality ⟨hd, hr, hc, hn⟩ (fits_of_le hL hN hlam hNL _ _ true psi) pcs
    (fun a ha => by rw [hf] at ha; cases ha; exact ⟨hfr, hfc⟩)] at h
  rw [jax_flm_to_analysis_eq hJ' hL hlam hN h0 hm0 E flm sampling nside reality (fits_of_le hL hN hlam hNL _ _ true psi) (by omega) hr hc pcs hfr hfc]
  exact specAna_wav hf h hle fun j a _ _ => rfl

/-- **C33** (C) -/
theorem C33_c (E : CFFT) (hJ : jm L lam = .ok J) (hL : 1 ≤ L) (hlam : 1 < lam) (hN : 1 ≤ N) (hNL : N ≤ L)
    (h0 : 0 ≤ J_min) {J_max : Option ℤ} (hm : ∀ J', J_max = some J' → J' ≤ J) (hm0 : J_min ≤ J_max.getD J + 1)
    (hd : J < psi.d) (hr : psi.r = L) (hc : psi.c = 2 * L - 1) (hn : phi.n = L)
    {f s : Px} {flm : Arr2 ℂ} {w : List Px} {k : ℕ} (hh : sampling.toLower ≠ "healpix")
    (hk : C.sshtIndex sampling.toLower = .ok k) (hf : E.sphForward f L spin reality k = .ok flm)
    (hfr : flm.r = L) (hfc : flm.c = 2 * L - 1)
    (h : C.analysis jm E f L N J_min lam spin sampling reality (some (psi, phi)) = .ok (w, s)) :
    C.flm_to_analysis jm E flm L N J_min J_max lam sampling reality (some psi) =
      .ok (w.take (J_max.getD J + 1 - J_min).toNat) := by
  obtain ⟨J', hJ', hle, he⟩ := topJ_le hJ hm
  rw [← he] at hm0 ⊢
  rw [c_analysis_eq hJ hL hlam hN h0 (by omega) E f spin sampling reality ⟨hd, hr, hc, hn⟩ (fits_of_le hL hN hlam hNL _ _ true psi) hh hk
    (fun a ha => by rw [hf] at ha; cases ha; exact ⟨hfr, hfc⟩)] at h
  rw [c_flm_to_analysis_eq hJ' hL hlam hN h0 hm0 E flm sampling reality (fits_of_le hL hN hlam hNL _ _ true psi) (by omega) hr hc hfr hfc]
  exact specAna_wav hf h hle fun j a _ _ => rfl

/-- **C33** (precompute, without `J_max`) and **C34** (with `J_max < j_max` and `_precomp_shift=False`) -/
theorem C34_shift_false {KW KS : Type} (E : PreFFT KW KS) (hJ : jm L lam = .ok J) (hL : 1 ≤ L) (hlam : 1 < lam) (hN : 1 ≤ N)
    (hNL : N ≤ L) (h0 : 0 ≤ J_min) (h1 : J_min ≤ J + 1)
    (hd : J < psi.d) (hr : psi.r = L) (hc : psi.c = 2 * L - 1) (hn : phi.n = L)
    {f s : Px} {flm : Arr2 ℂ} {w : List Px} {pcs : Option KS × Option KS × List KW} {k0 : KS} (hk : pcs.1 = some k0)
    (hf : E.sphForward f k0 L sampling reality spin nside = .ok flm) (hfr : flm.r = L) (hfc : flm.c = 2 * L - 1) :
    (Pre.analysis jm E f L N J_min lam spin sampling nside reality (some (psi, phi)) (some pcs) = .ok (w, s) →
      Pre.flm_to_analysis jm E flm L N J_min none lam sampling nside reality (some psi) (some pcs) true = .ok w ∧
      ∀ J', J_min ≤ J' + 1 → J' < J → Pre.flm_to_analysis jm E flm L N J_min (some J') lam sampling nside reality (some psi)
        (some pcs) false = .ok (w.take (J' + 1 - J_min).toNat)) ∧
    (Torch.analysis jm E f L N J_min lam spin sampling nside reality (some (psi, phi)) (some pcs) = .ok (w, s) →
      Torch.flm_to_analysis jm E flm L N J_min none lam sampling nside reality (some psi) (some pcs) = .ok w) := by
  have hk' : unNone pcs.1 = .ok k0 := by rw [hk]; rfl
  constructor
  · intro h
    rw [pre_analysis_eq hJ hL hlam hN h0 h1 E f spin sampling nside reality ⟨hd, hr, hc, hn⟩ (fits_of_le hL hN hlam hNL _ _ true psi) pcs
      (fun k a hk1 ha => by rw [hk'] at hk1; cases hk1; rw [hf] at ha; cases ha; exact ⟨hfr, hfc⟩), hk', Py.bind_ok] at h
    have hl : w.length = (J + 1 - J_min).toNat := by
      unfold specAna at h
      obtain ⟨_, -, h⟩ := Py.bind_eq_ok.1 h
      obtain ⟨_, hw, h⟩ := Py.bind_eq_ok.1 h
      obtain ⟨_, -, h⟩ := Py.bind_eq_ok.1 h
      cases h
      rw [mapM_length hw, length_pyRange]
    constructor
    · rw [pre_flm_to_analysis_eq (J := J) (show topJ jm none L lam = .ok J from hJ) hL hlam hN h0 h1 E flm sampling nside reality (fits_of_le hL hN hlam hNL _ _ true psi) hd hr hc pcs true hfr hfc]
      exact (specAna_wav hf h le_rfl fun j a _ _ => rfl).trans (by rw [List.take_of_length_le (by omega)])
    · intro J' h2 h3
      rw [pre_flm_to_analysis_eq (J := J') (J_max := some J') rfl hL hlam hN h0 (by omega) E flm sampling nside reality
        (fits_of_le hL hN hlam hNL _ _ true psi) (by omega) hr hc pcs false hfr hfc]
      refine specAna_wav hf h h3.le fun j a h4 h5 => ?_
      unfold kShift
      rw [if_pos (show j < J by omega), add_zero]
      rfl
  · intro h
    rw [torch_analysis_eq hJ hL hlam hN h0 h1 E f spin sampling nside reality ⟨hd, hr, hc, hn⟩ (fits_of_le hL hN hlam hNL _ _ true psi) pcs
      (fun k a hk1 ha => by rw [hk'] at hk1; cases hk1; rw [hf] at ha; cases ha; exact ⟨hfr, hfc⟩), hk', Py.bind_ok] at h
    have hl : w.length = (J + 1 - J_min).toNat := by
      unfold specAna at h
      obtain ⟨_, -, h⟩ := Py.bind_eq_ok.1 h
      obtain ⟨_, hw, h⟩ := Py.bind_eq_ok.1 h
      obtain ⟨_, -, h⟩ := Py.bind_eq_ok.1 h
      cases h
      rw [mapM_length hw, length_pyRange]
    rw [torch_flm_to_analysis_eq (J := J) (show topJ jm none L lam = .ok J from hJ) hL hlam hN h0 h1 E flm sampling nside reality (fits_of_le hL hN hlam hNL _ _ true psi) hd hr hc pcs hfr hfc,
      specAna_wav hf h le_rfl fun j a _ _ => rfl, List.take_of_length_le (by omega)]

/-- the toy configuration: all scales, or the lowest scale only -/
example (f : Px) (psi : Arr3 ℂ) (phi : Arr1 ℝ) (h : filters_directional_vectorised j_max 3 2 0 2 0 0 = .ok (psi, phi)) :
    ∃ w s, Jax.analysis j_max Toy.jax f 3 2 0 2 0 "mw" none true (some (psi, phi)) (some [(), (), ()]) = .ok (w, s) ∧
      Jax.flm_to_analysis j_max Toy.jax (Toy.sphFwd true f 3) 3 2 0 none 2 "mw" none true (some psi) (some [(), (), ()]) = .ok w ∧
      Jax.flm_to_analysis j_max Toy.jax (Toy.sphFwd true f 3) 3 2 0 (some 0) 2 "mw" none true (some psi) (some [(), (), ()]) =
        .ok (w.take 1) := by
  have hw := exCfg_works (b := .jax Toy.jax) (Or.inr (Or.inr (Or.inl rfl))) true 0
  have hsh := dir_shape hw.valid.top hw.valid.hN (filters_built (b := .jax Toy.jax) (c := exCfg true 0) h)
  have hsh' : psi.d = 3 ∧ psi.r = 3 ∧ psi.c = 2 * 3 - 1 ∧ phi.n = 3 := hsh
  obtain ⟨w, s, hr, -⟩ := Backend.analysis_run hw.valid (.jax Toy.jax) hw.ready hw.std hw.exact hw.trip
    (psi := psi) (phi := phi) h (f := f) (flm := Toy.sphFwd true f 3) rfl
  have hp : Construct.generate_wigner_precomputes j_max Toy.jax 3 2 0 2 "mw" none false true = .ok [(), (), ()] := by
    unfold Construct.generate_wigner_precomputes
    rw [j_max_3_2, Py.bind_ok]; rfl
  have hr' : Jax.analysis j_max Toy.jax f 3 2 0 2 0 "mw" none true (some (psi, phi)) (some [(), (), ()]) = .ok (w, s) := by
    have : (filters_directional_vectorised j_max 3 2 0 2 0 0 >>= fun flt =>
      Construct.generate_wigner_precomputes j_max Toy.jax 3 2 0 2 "mw" none false true >>= fun pcs =>
        Jax.analysis j_max Toy.jax f 3 2 0 2 0 "mw" none true (some flt) (some pcs)) = .ok (w, s) := hr
    rwa [h, hp] at this
  have key := fun J_max hm hm0 => C33_jax (J_max := J_max) Toy.jax j_max_3_2 (by norm_num) (by norm_num) (by norm_num)
    (by norm_num) (le_refl 0) hm hm0 (by omega) hsh'.2.1 hsh'.2.2.1 hsh'.2.2.2 (flm := Toy.sphFwd true f 3) rfl rfl rfl hr'
  refine ⟨w, s, hr', ?_, key (some 0) (by rintro J' ⟨⟩; norm_num) (by norm_num)⟩
  have h1 := key none (by rintro J' ⟨⟩) (by norm_num)
  have hl : w.length = 3 := by
    obtain ⟨n, hn, h⟩ := C02_lengths (L := 3) (N := 2) (J_min := 0) (lam := 2) (sampling := "mw") (nside := none) (mr := true)
      (spin := 0) (spin0 := 0) (reality := true) j_max_3_2 (by norm_num)
    have h2 := h.2.2.2.1 _ _ _ _ _ _ _ hr'
    simp only [n_wav_scales, j_max_3_2, Py.bind_ok] at hn
    cases hn
    omega
  rw [List.take_of_length_le (by rw [hl]; decide)] at h1
  exact h1

/-! ### Precomputed kernels -/

/-- **C32** the kernel each scale reads in the precompute transforms (index `j - J_min`, minus one for the top scale) is the
one generated for its own band-limits and direction; likewise the two spherical kernels. -/
theorem C32_kernels {KW KS : Type} {E : PreFFT KW KS} (hv : c.Valid jm J) {forward : Bool}
    {pcs : Option KS × Option KS × List KW}
    (h : Construct.generate_full_precomputes jm E c.L c.N c.J_min c.lam c.sampling c.nside forward c.reality false = .ok pcs) :
    (∃ k, pcs.1 = some k ∧ E.sphKernel c.L 0 c.reality c.sampling c.nside (!forward) = .ok k) ∧
    (∃ k, pcs.2.1 = some k ∧ E.sphKernel (c.Ls true) 0 c.reality c.sampling c.nside forward = .ok k) ∧
    ((pcs.2.2.length : ℤ) = J - c.J_min) ∧
    ∀ j, c.J_min ≤ j → j ≤ J → ∃ k, listGet pcs.2.2 (j - c.J_min + (if j < J then 0 else -1)) = .ok k ∧
      E.wigKernel (c.Lj true j) (c.Nj true j) c.reality c.sampling c.nside forward = .ok k := by
  have h1 := hv.h1
  have hu : ∀ {α : Type} {o : Option α} {a : α}, unNone o = .ok a → o = some a := by
    rintro α (_ | _) a h <;> cases h; rfl
  obtain ⟨⟨k0, e0, e0'⟩, ⟨k1, e1, e1'⟩, hk⟩ := pre_kernel hv.core h
  refine ⟨⟨k0, hu e0, e0'⟩, ⟨k1, hu e1, e1'⟩, ?_, fun j hj0 hj1 => hk j hj0 (by omega)⟩
  unfold Construct.generate_full_precomputes at h
  simp only [hv.top.hJ, Py.bind_ok, Bool.false_eq_true, if_false] at h
  obtain ⟨ks, hks, h⟩ := Py.bind_eq_ok.1 h
  obtain ⟨k1, hk1, h⟩ := Py.bind_eq_ok.1 h
  obtain ⟨k0, hk0, h⟩ := Py.bind_eq_ok.1 h
  cases h
  rw [mapM_length hks, length_pyRange]
  omega

/-- transforms that check their kernel: it must have been made for the same band-limits, spin and direction -/
noncomputable def labelled : PreFFT (ℤ × ℤ × Bool) (ℤ × ℤ × Bool) where
  wigKernel L N _ _ _ forward := .ok (L, N, forward)
  sphKernel L spin _ _ _ forward := .ok (L, spin, forward)
  sphForward f k L _ reality spin _ := if k = (L, spin, true) then .ok (Toy.sphFwd reality f L) else .error .valueError
  sphInverse a k L _ reality spin _ := if k = (L, spin, false) then .ok (Toy.sphInv reality a L) else .error .valueError
  wigForward f k L N _ _ _ := if k = (L, N, true) then .ok (Toy.wigFwd f L N 0) else .error .valueError
  wigInverse t k L N _ _ _ := if k = (L, N, false) then .ok (Toy.wigInv t L N) else .error .valueError

theorem labelled_ready (hv : c.Valid jm J) (forward : Bool) : ∃ pcs,
    Construct.generate_full_precomputes jm labelled c.L c.N c.J_min c.lam c.sampling c.nside forward c.reality false = .ok pcs := by
  unfold Construct.generate_full_precomputes
  rw [hv.top.hJ, Py.bind_ok]
  obtain ⟨ks, hks⟩ := mapM_all_ok (a := c.J_min) (b := J) (m := fun j => labelled.wigKernel (LN_j c.L j c.N c.lam true).1
    (LN_j c.L j c.N c.lam true).2.1 c.reality c.sampling c.nside forward) fun j _ _ => ⟨_, rfl⟩
  have : (pyRange c.J_min J).mapM (fun j => match LN_j c.L j c.N c.lam true with
    | (Lj, Nj, _L0j) => labelled.wigKernel Lj Nj c.reality c.sampling c.nside forward) = .ok ks := hks
  rw [this]
  exact ⟨_, rfl⟩

theorem labelled_engine (h : c.spin = 0) : preEngine labelled c = preEngine Toy.pre c := by
  unfold preEngine labelled Toy.pre
  simp [h]

theorem labelled_std : (preEngine labelled c).Std c.reality := by
  constructor
  · intro p L a h
    unfold preEngine labelled at h
    simp only [Py.bind_ok] at h
    split_ifs at h
    cases h
    refine ⟨Toy.sphFwd_bl _ _ _, fun hr => ?_⟩
    rw [hr]
    exact Toy.sphFwd_herm _ _
  · intro p L N L0 t h
    unfold preEngine labelled at h
    simp only [Py.bind_ok, if_true] at h
    cases h
    exact Toy.wigFwd_bl _ _ _ _

/-- **C32** for spin 0 the transforms that check their kernels never complain and give the same results as transforms that
ignore them, on every signal and every coefficient list -/
theorem C32_checked (hv : c.Valid jm J) (hs : c.spin = 0) (hm : c.sampling = "mw") (f s : Px) (w : List Px) :
    (Backend.pre labelled).analysis jm c f = (Backend.pre Toy.pre).analysis jm c f ∧
    (Backend.pre labelled).synthesis jm c w s = (Backend.pre Toy.pre).synthesis jm c w s ∧
    (Backend.torch labelled).analysis jm c f = (Backend.torch Toy.pre).analysis jm c f ∧
    (Backend.torch labelled).synthesis jm c w s = (Backend.torch Toy.pre).synthesis jm c w s := by
  obtain ⟨psi, phi, hflt⟩ := filters_exist hv (.pre labelled)
  have he := labelled_engine hs
  have g1 := Toy.good (b := .pre Toy.pre) hv hm (by simp [Toy.IsToy])
  have g2 := Toy.good (b := .torch Toy.pre) hv hm (by simp [Toy.IsToy])
  refine ⟨?_, ?_, ?_, ?_⟩
  · rw [(Backend.pre labelled).analysis_spec hv (labelled_ready hv) labelled_std hflt,
      (Backend.pre Toy.pre).analysis_spec hv g1.ready g1.std hflt]
    unfold Backend.engine Backend.scalI
    dsimp only [Backend.engine]
    rw [he]; rfl
  · rw [(Backend.pre labelled).synthesis_spec hv (labelled_ready hv) labelled_std (by rintro ⟨⟩) hflt,
      (Backend.pre Toy.pre).synthesis_spec hv g1.ready g1.std (by rintro ⟨⟩) hflt]
    unfold Backend.engine
    dsimp only [Backend.engine]
    rw [he]; rfl
  · rw [(Backend.torch labelled).analysis_spec hv (labelled_ready hv) labelled_std hflt,
      (Backend.torch Toy.pre).analysis_spec hv g2.ready g2.std hflt]
    unfold Backend.engine Backend.scalI
    dsimp only [Backend.engine]
    rw [he]; rfl
  · rw [(Backend.torch labelled).synthesis_spec hv (labelled_ready hv) labelled_std (by rintro ⟨⟩) hflt,
      (Backend.torch Toy.pre).synthesis_spec hv g2.ready g2.std (by rintro ⟨⟩) hflt]
    unfold Backend.engine
    dsimp only [Backend.engine]
    rw [he]; rfl

/-- so checked transforms succeed -/
example (f : Px) : ∃ r, (Backend.pre labelled).analysis j_max (exCfg true 0) f = .ok r := by
  have hw := exCfg_works (b := .pre Toy.pre) (by simp [Toy.IsToy]) true 0
  obtain ⟨psi, phi, hflt⟩ := filters_exist hw.valid (.pre Toy.pre)
  obtain ⟨w, s, h, -⟩ := Backend.analysis_run hw.valid (.pre Toy.pre) hw.ready hw.std hw.exact hw.trip hflt (f := f)
    (flm := Toy.sphFwd true f 3) rfl
  exact ⟨(w, s), ((C32_checked hw.valid rfl rfl f f []).1).trans h⟩

/-- **C43** `generate_full_precomputes` never asks for a kernel of non-zero spin -/
theorem C43_spin_kernels {KW KS : Type} (E : PreFFT KW KS)
    (other : (L spin : ℤ) → (reality : Bool) → String → Option ℤ → (forward : Bool) → Py KS) (forward nospherical : Bool) :
    Construct.generate_full_precomputes jm { E with sphKernel := fun L s => if s = 0 then E.sphKernel L 0 else other L s }
        L N J_min lam sampling nside forward reality nospherical =
      Construct.generate_full_precomputes jm E L N J_min lam sampling nside forward reality nospherical := by
  unfold Construct.generate_full_precomputes
  simp only [if_true]

/-- **C43** so for a non-zero spin the kernels passed to the spherical transforms are never the ones of that spin:
transforms that check their kernel raise on every signal and every coefficient list. -/
theorem C43_never_matches (hv : c.Valid jm J) (hs : c.spin ≠ 0) (f s : Px) (w : List Px) :
    (Backend.pre labelled).analysis jm c f = .error .valueError ∧
    (Backend.pre labelled).synthesis jm c w s = .error .valueError ∧
    (Backend.torch labelled).analysis jm c f = .error .valueError ∧
    (Backend.torch labelled).synthesis jm c w s = .error .valueError := by
  obtain ⟨psi, phi, hflt⟩ := filters_exist hv (.pre labelled)
  have hF : ∀ (p : Px) (L : ℤ), (preEngine labelled c).sphF p L = .error .valueError := by
    intro p L
    unfold preEngine labelled
    simp only [Py.bind_ok]
    rw [if_neg (by simp [hs.symm])]
  refine ⟨?_, ?_, ?_, ?_⟩
  · rw [(Backend.pre labelled).analysis_spec hv (labelled_ready hv) labelled_std hflt]
    unfold specAna
    dsimp only [Backend.engine]
    rw [hF]; rfl
  · rw [(Backend.pre labelled).synthesis_spec hv (labelled_ready hv) labelled_std (by rintro ⟨⟩) hflt]
    unfold specSyn
    dsimp only [Backend.engine]
    rw [hF]; rfl
  · rw [(Backend.torch labelled).analysis_spec hv (labelled_ready hv) labelled_std hflt]
    unfold specAna
    dsimp only [Backend.engine]
    rw [hF]; rfl
  · rw [(Backend.torch labelled).synthesis_spec hv (labelled_ready hv) labelled_std (by rintro ⟨⟩) hflt]
    unfold specSyn
    dsimp only [Backend.engine]
    rw [hF]; rfl

example (f : Px) : (Backend.pre labelled).analysis j_max (exCfg true 2) f = .error .valueError :=
  (C43_never_matches (exCfg_valid true 2) (by norm_num [exCfg]) f f []).1

/-- the scale whose kernel the top scale `J'` reads -/
def readScale (J_min J J' : ℤ) : ℤ := if J' = J_min then J - 1 else J' - 1

/-- **C34** which kernel `flm_to_analysis(J_max=J')` uses for its top scale when `J' < j_max` and the shift is on (the
default; always in torch): the one of scale `J' - 1`, or of scale `j_max - 1` if `J' = J_min`. -/
theorem C34_kernel_read {KW KS : Type} {E : PreFFT KW KS} (hv : c.Valid jm J) {J' : ℤ} (h2 : c.J_min ≤ J') (h3 : J' < J)
    {pcs : Option KS × Option KS × List KW}
    (hp : Construct.generate_full_precomputes jm E c.L c.N c.J_min c.lam c.sampling c.nside false c.reality false = .ok pcs)
    (hd : J < psi.d) (hr : psi.r = c.L) (hc : psi.c = 2 * c.L - 1) {flm : Arr2 ℂ} (hfr : flm.r = c.L) (hfc : flm.c = 2 * c.L - 1)
    {w : List Px}
    (h : Pre.flm_to_analysis jm E flm c.L c.N c.J_min (some J') c.lam c.sampling c.nside c.reality (some psi) (some pcs) true
        = .ok w ∨
      Torch.flm_to_analysis jm E flm c.L c.N c.J_min (some J') c.lam c.sampling c.nside c.reality (some psi) (some pcs)
        = .ok w) :
    ∃ k p a, E.wigKernel (c.Lj true (readScale c.J_min J J')) (c.Nj true (readScale c.J_min J J')) c.reality c.sampling
        c.nside false = .ok k ∧ listGet w (J' - c.J_min) = .ok p ∧
      E.wigInverse a k (c.Lj true J') (c.Nj true J') c.sampling c.reality c.nside = .ok p := by
  have hks : ∃ ks, pcs.2.2 = ks ∧ (pyRange c.J_min J).mapM (fun j => E.wigKernel (c.Lj true j) (c.Nj true j) c.reality
      c.sampling c.nside false) = .ok ks := by
    unfold Construct.generate_full_precomputes at hp
    simp only [hv.top.hJ, Py.bind_ok, Bool.false_eq_true, if_false] at hp
    obtain ⟨ks, hks, hp⟩ := Py.bind_eq_ok.1 hp
    obtain ⟨k1, hk1, hp⟩ := Py.bind_eq_ok.1 hp
    obtain ⟨k0, hk0, hp⟩ := Py.bind_eq_ok.1 hp
    cases hp
    exact ⟨ks, rfl, hks⟩
  obtain ⟨ks, rfl, hks⟩ := hks
  have h' : specWav (fun j a => do
          let pc ← listGet pcs.2.2 (kShift J' c.J_min j)
          E.wigInverse a pc (LN_j c.L j c.N c.lam true).1 (LN_j c.L j c.N c.lam true).2.1 c.sampling c.reality c.nside)
        c.L c.N c.J_min J' c.lam true psi flm = .ok w := by
    rcases h with h | h
    · rwa [pre_flm_to_analysis_eq (J := J') (J_max := some J') rfl hv.top.hL hv.top.hlam hv.hN hv.h0 (by omega) E flm
        c.sampling c.nside c.reality (fits_of_le hv.top.hL hv.hN hv.top.hlam hv.hNL _ _ true psi) (by omega) hr hc pcs true hfr hfc,
        cutPsi_of_le hv.top.hL hv.hN hv.top.hlam hv.hNL] at h
    · rwa [torch_flm_to_analysis_eq (J := J') (J_max := some J') rfl hv.top.hL hv.top.hlam hv.hN hv.h0 (by omega) E flm
        c.sampling c.nside c.reality (fits_of_le hv.top.hL hv.hN hv.top.hlam hv.hNL _ _ true psi) (by omega) hr hc pcs hfr hfc,
        cutPsi_of_le hv.top.hL hv.hN hv.top.hlam hv.hNL] at h
  obtain ⟨p, hp1, hp2⟩ := mapM_get h' h2 (show J' < J' + 1 by omega)
  beta_reduce at hp2
  obtain ⟨k, hk, hp2⟩ := Py.bind_eq_ok.1 hp2
  refine ⟨k, p, _, ?_, hp1, hp2⟩
  unfold kShift at hk
  rw [if_neg (lt_irrefl _)] at hk
  unfold readScale
  by_cases hJ' : J' = c.J_min
  · rw [if_pos hJ']
    obtain ⟨x, hx, hx'⟩ := mapM_get hks (show c.J_min ≤ J - 1 by omega) (by omega)
    have hl : pcs.2.2.length = (J - c.J_min).toNat := by rw [mapM_length hks, length_pyRange]
    have : listGet pcs.2.2 (J' - c.J_min + -1) = listGet pcs.2.2 (J - 1 - c.J_min) := by
      unfold listGet
      rw [if_neg (by omega), if_pos (by omega), if_pos (by omega)]
      congr 2
      congr 1
      omega
    rw [this, hx] at hk
    cases hk
    exact hx'
  · rw [if_neg hJ']
    obtain ⟨x, hx, hx'⟩ := mapM_get hks (show c.J_min ≤ J' - 1 by omega) (by omega)
    have e : J' - c.J_min + -1 = J' - 1 - c.J_min := by ring
    rw [e, hx] at hk
    cases hk
    exact hx'

/-- **C34** the consequence: whenever the two scales have different band-limits the kernel is the wrong one, so transforms
that check their kernel fail for every signal. -/
theorem C34_wrong_kernel (hv : c.Valid jm J) {J' : ℤ} (h2 : c.J_min ≤ J') (h3 : J' < J)
    (hne : c.Lj true (readScale c.J_min J J') ≠ c.Lj true J') {pcs : Option (ℤ × ℤ × Bool) × Option (ℤ × ℤ × Bool) × List (ℤ × ℤ × Bool)}
    (hp : Construct.generate_full_precomputes jm labelled c.L c.N c.J_min c.lam c.sampling c.nside false c.reality false = .ok pcs)
    (hd : J < psi.d) (hr : psi.r = c.L) (hc : psi.c = 2 * c.L - 1) {flm : Arr2 ℂ} (hfr : flm.r = c.L) (hfc : flm.c = 2 * c.L - 1)
    (w : List Px) :
    Pre.flm_to_analysis jm labelled flm c.L c.N c.J_min (some J') c.lam c.sampling c.nside c.reality (some psi) (some pcs) true
        ≠ .ok w ∧
    Torch.flm_to_analysis jm labelled flm c.L c.N c.J_min (some J') c.lam c.sampling c.nside c.reality (some psi) (some pcs)
        ≠ .ok w := by
  have key : ¬ (Pre.flm_to_analysis jm labelled flm c.L c.N c.J_min (some J') c.lam c.sampling c.nside c.reality (some psi) (some pcs) true
        = .ok w ∨ Torch.flm_to_analysis jm labelled flm c.L c.N c.J_min (some J') c.lam c.sampling c.nside c.reality (some psi)
          (some pcs) = .ok w) := by
    intro h
    obtain ⟨k, p, a, hk, -, hi⟩ := C34_kernel_read hv h2 h3 hp hd hr hc hfr hfc h
    cases hk
    unfold labelled at hi
    simp only [Prod.mk.injEq, and_true] at hi
    rw [if_neg fun h => hne h.1] at hi
    cases hi
  exact ⟨fun h => key (Or.inl h), fun h => key (Or.inr h)⟩

/-- the situation occurs: `L = 8`, `lam = 2`, `J_min = 1`, `j_max = 3`: asking for scales 1 and 2 reads a kernel of
band-limit 4 for scale 2 of band-limit 8, asking for scale 1 alone reads the kernel of band-limit 8 for band-limit 4 -/
example : let c : Cfg := ⟨8, 1, 1, 2, 0, "mw", none, true⟩
    c.Valid j_max 3 ∧ c.Lj true (readScale 1 3 2) = 4 ∧ c.Lj true 2 = 8 ∧ c.Lj true (readScale 1 3 1) = 8 ∧ c.Lj true 1 = 4 := by
  have h1 : (LN_j 8 1 1 2 true).1 = 4 := by
    rw [LN_j_Lj]; unfold wav_j_bandlimit
    norm_num
  have h2 : (LN_j 8 2 1 2 true).1 = 8 := by
    rw [LN_j_Lj]; unfold wav_j_bandlimit
    norm_num
  refine ⟨⟨TopScale.of_j_max (by norm_num) (by norm_num) j_max_8_2, by norm_num, by norm_num, by norm_num, by norm_num⟩,
    h1, h2, h2, h1⟩

/-! ### `Ls = 1` -/

/-- **C44** the scaling function has a single degree exactly for `J_min = 0` -/
theorem C44_single_degree (hv : c.Valid jm J) (hL : 2 ≤ c.L) : c.Ls true = 1 ↔ c.J_min = 0 := by
  unfold Cfg.Ls scal_bandlimit
  simp only [if_true]
  have hlam := hv.top.hlam
  constructor
  · intro h
    by_contra hne
    have h0 := hv.h0
    have : (1 : ℝ) < c.lam ^ c.J_min := one_lt_zpow₀ hlam (by omega)
    have h1 : 1 < ⌈c.lam ^ c.J_min⌉ := Int.lt_ceil.2 (by exact_mod_cast this)
    omega
  · intro h
    rw [h, zpow_zero, Int.ceil_one]
    omega

/-- **C44** with `J_min = 0` the JAX, C and precompute analyses return a scaling image of shape `(1, 1)`, so it has the
shape `f_scal` documents exactly if s2fft's images of band-limit 1 have that shape. -/
theorem C44_shape (hv : c.Valid jm J) (hL : 2 ≤ c.L) (h0 : c.J_min = 0) {b : Backend} (hb : b.isBase = false)
    (hR : b.Ready jm c) (hE : (b.engine c).Std c.reality) {f s : Px} {w : List Px} (h : b.analysis jm c f = .ok (w, s))
    (E : Shapes) {sh : List ℤ} (hs : E.s2 1 c.sampling c.nside = .ok sh) :
    s.shape = [1, 1] ∧ (f_scal E c.L c.J_min c.lam c.sampling c.nside true = .ok s.shape ↔ sh = [1, 1]) := by
  have hm : b.mr = true := by cases b <;> first | rfl | cases hb
  have hLs := (C44_single_degree hv hL).2 h0
  obtain ⟨psi, phi, hflt⟩ := filters_exist hv b
  rw [b.analysis_formula hv hR hE hflt] at h
  obtain ⟨flm, -, h⟩ := Py.bind_eq_ok.1 h
  obtain ⟨w', hw, h⟩ := Py.bind_eq_ok.1 h
  obtain ⟨s', hs', h⟩ := Py.bind_eq_ok.1 h
  cases h
  have hsh : s.shape = [1, 1] := by
    unfold Backend.scalI at hs'
    rw [if_pos ⟨hb, by rw [hm]; exact hLs⟩] at hs'
    cases hs'
    unfold Px.ofArr2
    show [c.Ls b.mr, 2 * c.Ls b.mr - 1] = _
    rw [hm, hLs]; rfl
  have hfs : f_scal E c.L c.J_min c.lam c.sampling c.nside true = E.s2 (c.Ls true) c.sampling c.nside := by
    unfold f_scal Cfg.Ls scal_bandlimit; rfl
  refine ⟨hsh, ?_⟩
  rw [hsh, hfs, hLs, hs]
  exact ⟨fun h => by cases h; rfl, fun h => by rw [h]⟩

/-- s2fft's shapes at band-limit 1: `(1, 1)` for `mw`, `(2, 2)` for `mwss` -/
example (f : Px) : ∃ w s, (Backend.jax Toy.jax).analysis j_max (exCfg true 0) f = .ok (w, s) ∧ s.shape = [1, 1] ∧
    f_scal Toy.shapes 3 0 2 "mw" none true = .ok s.shape ∧
    f_scal ⟨fun L _ _ => .ok [L + 1, 2 * L], fun _ _ _ _ => .ok []⟩ 3 0 2 "mwss" none true ≠ .ok s.shape := by
  have hw := exCfg_works (b := .jax Toy.jax) (by simp [Toy.IsToy]) true 0
  obtain ⟨psi, phi, hflt⟩ := filters_exist hw.valid (.jax Toy.jax)
  obtain ⟨w, s, h, -⟩ := Backend.analysis_run hw.valid (.jax Toy.jax) hw.ready hw.std hw.exact hw.trip hflt (f := f)
    (flm := Toy.sphFwd true f 3) rfl
  have h1 := C44_shape hw.valid (by norm_num [exCfg]) rfl (b := .jax Toy.jax) rfl hw.ready hw.std h Toy.shapes (sh := [1, 1]) rfl
  have h2 := C44_shape hw.valid (by norm_num [exCfg]) rfl (b := .jax Toy.jax) rfl hw.ready hw.std h
    ⟨fun L _ _ => .ok [L + 1, 2 * L], fun _ _ _ _ => .ok []⟩ (sh := [2, 2]) rfl
  refine ⟨w, s, h, h1.1, h1.2.2 rfl, fun hc => ?_⟩
  have := h2.2.1 hc
  revert this
  decide

/-! ## C70 -/

/-- **C70** `generate_full_precomputes(nospherical=True)` returns the same Wigner kernels and no spherical ones. -/
theorem C70_same_kernels {KW KS : Type} (E : PreFFT KW KS) {forward : Bool} {pcs : Option KS × Option KS × List KW}
    (h : Construct.generate_full_precomputes jm E L N J_min lam sampling nside forward reality false = .ok pcs) :
    Construct.generate_full_precomputes jm E L N J_min lam sampling nside forward reality true = .ok (none, none, pcs.2.2) := by
  unfold Construct.generate_full_precomputes at h ⊢
  obtain ⟨J, hJ, h⟩ := Py.bind_eq_ok.1 h
  obtain ⟨ks, hks, h⟩ := Py.bind_eq_ok.1 h
  simp only [Bool.false_eq_true, if_false] at h
  obtain ⟨k1, -, h⟩ := Py.bind_eq_ok.1 h
  obtain ⟨k0, -, h⟩ := Py.bind_eq_ok.1 h
  cases h
  rw [hJ, Py.bind_ok, hks, Py.bind_ok]
  rfl

/-- **C70** they are enough for `flm_to_analysis`: it gives the same maps with them as with the full precomputes, in JAX and
torch, for all coefficients, filters and top scales. -/
theorem C70_flm_to_analysis {KW KS : Type} (E : PreFFT KW KS) (flm : Arr2 ℂ) (J_max : Option ℤ) (flt : Option (Arr3 ℂ))
    (shift : Bool) (pcs : Option KS × Option KS × List KW) :
    Pre.flm_to_analysis jm E flm L N J_min J_max lam sampling nside reality flt (some (none, none, pcs.2.2)) shift =
      Pre.flm_to_analysis jm E flm L N J_min J_max lam sampling nside reality flt (some pcs) shift ∧
    Torch.flm_to_analysis jm E flm L N J_min J_max lam sampling nside reality flt (some (none, none, pcs.2.2)) =
      Torch.flm_to_analysis jm E flm L N J_min J_max lam sampling nside reality flt (some pcs) :=
  ⟨rfl, rfl⟩

/-- **C70** they are not enough for the other transforms: analysis and synthesis never succeed with them. -/
theorem C70_not_enough {KW KS : Type} (E : PreFFT KW KS) (f s : Px) (w : List Px) (flt : Option (Arr3 ℂ × Arr1 ℝ))
    (ks : List KW) :
    (∀ r, Pre.analysis jm E f L N J_min lam spin sampling nside reality flt (some (none, none, ks)) ≠ .ok r) ∧
    (∀ r, Pre.synthesis jm E w s L N J_min lam spin sampling nside reality flt (some (none, none, ks)) ≠ .ok r) ∧
    (∀ r, Torch.analysis jm E f L N J_min lam spin sampling nside reality flt (some (none, none, ks)) ≠ .ok r) ∧
    (∀ r, Torch.synthesis jm E w s L N J_min lam spin sampling nside reality flt (some (none, none, ks)) ≠ .ok r) := by
  refine ⟨?_, ?_, ?_, ?_⟩ <;> intro r h
  · unfold Pre.analysis at h
    dsimp only at h
    obtain ⟨_, -, h⟩ := Py.bind_eq_ok.1 h
    obtain ⟨_, -, h⟩ := Py.bind_eq_ok.1 h
    obtain ⟨_, -, h⟩ := Py.bind_eq_ok.1 h
    obtain ⟨_, h, -⟩ := Py.bind_eq_ok.1 h
    cases h
  · unfold Pre.synthesis at h
    dsimp only at h
    obtain ⟨_, -, h⟩ := Py.bind_eq_ok.1 h
    obtain ⟨_, -, h⟩ := Py.bind_eq_ok.1 h
    obtain ⟨_, h, -⟩ := Py.bind_eq_ok.1 h
    cases h
  · unfold Torch.analysis at h
    dsimp only at h
    obtain ⟨_, -, h⟩ := Py.bind_eq_ok.1 h
    obtain ⟨_, -, h⟩ := Py.bind_eq_ok.1 h
    obtain ⟨_, -, h⟩ := Py.bind_eq_ok.1 h
    obtain ⟨_, -, h⟩ := Py.bind_eq_ok.1 h
    obtain ⟨_, -, h⟩ := Py.bind_eq_ok.1 h
    obtain ⟨_, h, -⟩ := Py.bind_eq_ok.1 h
    cases h
  · unfold Torch.synthesis at h
    dsimp only at h
    obtain ⟨_, -, h⟩ := Py.bind_eq_ok.1 h
    obtain ⟨_, -, h⟩ := Py.bind_eq_ok.1 h
    obtain ⟨_, h, -⟩ := Py.bind_eq_ok.1 h
    cases h

/-- the toy configuration: Wigner kernels only, and the maps of a signal computed with them -/
example (f : Px) (psi : Arr3 ℂ) (phi : Arr1 ℝ) (h : filters_directional_vectorised j_max 3 2 0 2 0 0 = .ok (psi, phi)) :
    Construct.generate_full_precomputes j_max Toy.pre 3 2 0 2 "mw" none false true true = .ok (none, none, [(), ()]) ∧
    ∃ w s, (Backend.pre Toy.pre).analysis j_max (exCfg true 0) f = .ok (w, s) ∧
      Pre.flm_to_analysis j_max Toy.pre (Toy.sphFwd true f 3) 3 2 0 none 2 "mw" none true (some psi)
        (some (none, none, [(), ()])) true = .ok w := by
  have hw := exCfg_works (b := .pre Toy.pre) (by simp [Toy.IsToy]) true 0
  have hsh := dir_shape hw.valid.top hw.valid.hN (filters_built (b := .pre Toy.pre) (c := exCfg true 0) h)
  have hsh' : psi.d = 3 ∧ psi.r = 3 ∧ psi.c = 2 * 3 - 1 ∧ phi.n = 3 := hsh
  obtain ⟨w, s, hr, -⟩ := Backend.analysis_run hw.valid (.pre Toy.pre) hw.ready hw.std hw.exact hw.trip
    (psi := psi) (phi := phi) h (f := f) (flm := Toy.sphFwd true f 3) rfl
  have hp : Construct.generate_full_precomputes j_max Toy.pre 3 2 0 2 "mw" none false true false =
      .ok (some (), some (), [(), ()]) := by
    unfold Construct.generate_full_precomputes
    rw [j_max_3_2, Py.bind_ok]; rfl
  refine ⟨C70_same_kernels Toy.pre hp, w, s, hr, ?_⟩
  have hr' : Pre.analysis j_max Toy.pre f 3 2 0 2 0 "mw" none true (some (psi, phi)) (some (some (), some (), [(), ()])) = .ok (w, s) := by
    have : (filters_directional_vectorised j_max 3 2 0 2 0 0 >>= fun flt =>
      Construct.generate_full_precomputes j_max Toy.pre 3 2 0 2 "mw" none false true false >>= fun pcs =>
        Pre.analysis j_max Toy.pre f 3 2 0 2 0 "mw" none true (some flt) (some pcs)) = .ok (w, s) := hr
    rwa [h, hp] at this
  exact ((C70_flm_to_analysis Toy.pre _ none (some psi) true (some (), some (), [(), ()])).1).trans
    ((C34_shift_false Toy.pre j_max_3_2 (by norm_num) (by norm_num) (by norm_num) (by norm_num) (le_refl 0) (by norm_num)
      (by omega) hsh'.2.1 hsh'.2.2.1 hsh'.2.2.2 (k0 := ()) rfl (flm := Toy.sphFwd true f 3) rfl rfl rfl).1 hr').1

end

end S2wav
