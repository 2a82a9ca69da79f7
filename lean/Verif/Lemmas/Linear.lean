import Verif.Toy

/-! # Linear combinations of images and coefficient arrays -/

namespace S2wav
open Classical

/-- `a * p + d * q` on images of the same shape -/
def Px.lin (a d : ℂ) (p q : Px) : Px := ⟨p.shape, fun i => a * p.v i + d * q.v i⟩

/-- `a * x + d * y` on arrays of the same shape -/
def Arr2.lin (a d : ℂ) (x y : Arr2 ℂ) : Arr2 ℂ := Arr2.of x.r x.c fun l i => a * x.v l i + d * y.v l i
def Arr3.lin (a d : ℂ) (x y : Arr3 ℂ) : Arr3 ℂ := Arr3.of x.d x.r x.c fun k l i => a * x.v k l i + d * y.v k l i

/-- the s2fft transforms are linear (over the reals for real signals) -/
structure Engine.Linear (e : Engine) (reality : Bool) : Prop where
  sphF : ∀ a d : ℂ, (reality = true → a.im = 0 ∧ d.im = 0) → ∀ p q L x y, p.shape = q.shape →
    e.sphF p L = .ok x → e.sphF q L = .ok y → e.sphF (p.lin a d q) L = .ok (x.lin a d y)
  sphI : ∀ a d : ℂ, (reality = true → a.im = 0 ∧ d.im = 0) → ∀ x y L p q, x.r = L → y.r = L → x.c = 2 * L - 1 → y.c = 2 * L - 1 →
    e.sphI x L = .ok p → e.sphI y L = .ok q → e.sphI (x.lin a d y) L = .ok (p.lin a d q)
  wigF : ∀ a d : ℂ, (reality = true → a.im = 0 ∧ d.im = 0) → ∀ p q L N L0 x y, p.shape = q.shape →
    e.wigF p L N L0 = .ok x → e.wigF q L N L0 = .ok y → e.wigF (p.lin a d q) L N L0 = .ok (x.lin a d y)
  wigI : ∀ a d : ℂ, (reality = true → a.im = 0 ∧ d.im = 0) → ∀ x y L N L0 p q, x.d = 2 * N - 1 → y.d = 2 * N - 1 →
    x.r = L → y.r = L → x.c = 2 * L - 1 → y.c = 2 * L - 1 →
    e.wigI x L N L0 = .ok p → e.wigI y L N L0 = .ok q → e.wigI (x.lin a d y) L N L0 = .ok (p.lin a d q)

theorem Arr2.lin_co {a d : ℂ} {x y : Arr2 ℂ} (hr : x.r = y.r) (hc : x.c = y.c) (l m : ℤ) :
    co2 (x.lin a d y) l m = a * co2 x l m + d * co2 y l m := by
  unfold Arr2.lin
  rw [co2_of, co2, co2, ← hr]
  split_ifs with h
  · rfl
  · rw [x.junk _ _ h, y.junk _ _ (by rw [← hr, ← hc]; exact h)]; simp

theorem Arr3.lin_co {a d : ℂ} {x y : Arr3 ℂ} (hd : x.d = y.d) (hr : x.r = y.r) (hc : x.c = y.c) (n l m : ℤ) :
    co3 (x.lin a d y) n l m = a * co3 x n l m + d * co3 y n l m := by
  unfold co3 Arr3.lin
  simp only [Arr3.of_d, Arr3.of_r, ← hd, ← hr]
  by_cases h : 0 ≤ (x.d - 1) / 2 + n ∧ (x.d - 1) / 2 + n < x.d ∧ 0 ≤ l ∧ l < x.r ∧ 0 ≤ x.r - 1 + m ∧ x.r - 1 + m < x.c
  · rw [Arr3.of_v _ _ _ _ _ _ _ h]
  · rw [Arr3.of_out _ _ _ _ _ _ _ h, x.junk _ _ _ h, y.junk _ _ _ (by rw [← hd, ← hr, ← hc]; exact h)]; simp

theorem scalCoeffs_lin {a d : ℂ} {x y : Arr2 ℂ} (hr : x.r = y.r) (hc : x.c = y.c) (Ls : ℤ) (phi : ℤ → ℝ) :
    scalCoeffs Ls phi (x.lin a d y) = (scalCoeffs Ls phi x).lin a d (scalCoeffs Ls phi y) := by
  unfold scalCoeffs
  refine Arr2.of_congr fun l i h0 h1 h2 h3 => ?_
  rw [Arr2.lin_co hr hc, Arr2.of_v _ _ _ _ _ ⟨h0, h1, h2, h3⟩, Arr2.of_v _ _ _ _ _ ⟨h0, h1, h2, h3⟩]
  ring

theorem wavCoeffs_lin {a d : ℂ} {x y : Arr2 ℂ} (hr : x.r = y.r) (hc : x.c = y.c) (Lj Nj : ℤ) (psi : ℤ → ℤ → ℂ) :
    wavCoeffs Lj Nj psi (x.lin a d y) = (wavCoeffs Lj Nj psi x).lin a d (wavCoeffs Lj Nj psi y) := by
  unfold wavCoeffs
  refine Arr3.of_congr fun k l i h0 h1 h2 h3 h4 h5 => ?_
  rw [Arr2.lin_co hr hc, Arr3.of_v _ _ _ _ _ _ _ ⟨h0, h1, h2, h3, h4, h5⟩, Arr3.of_v _ _ _ _ _ _ _ ⟨h0, h1, h2, h3, h4, h5⟩]
  ring

theorem synCoeffs_lin {a d : ℂ} {L J_min J : ℤ} {psi : ℤ → ℤ → ℤ → ℂ} {phi : ℤ → ℝ} {W W' W'' : ℤ → Arr3 ℂ} {S S' : Arr2 ℂ}
    (hr : S.r = S'.r) (hc : S.c = S'.c)
    (hW : ∀ j, J_min ≤ j → j ≤ J → W'' j = (W j).lin a d (W' j) ∧ (W j).d = (W' j).d ∧ (W j).r = (W' j).r ∧ (W j).c = (W' j).c) :
    synCoeffs L J_min J psi phi W'' (S.lin a d S') = (synCoeffs L J_min J psi phi W S).lin a d (synCoeffs L J_min J psi phi W' S') := by
  unfold synCoeffs
  refine Arr2.of_congr fun l i h0 h1 h2 h3 => ?_
  rw [Arr2.lin_co hr hc, Arr2.of_v _ _ _ _ _ ⟨h0, h1, h2, h3⟩, Arr2.of_v _ _ _ _ _ ⟨h0, h1, h2, h3⟩]
  have : ∑ j ∈ Finset.Icc J_min J, ∑ n ∈ Finset.Ioo (-L) L, psi j l n * co3 (W'' j) n l (i - (L - 1)) =
      a * ∑ j ∈ Finset.Icc J_min J, ∑ n ∈ Finset.Ioo (-L) L, psi j l n * co3 (W j) n l (i - (L - 1)) +
      d * ∑ j ∈ Finset.Icc J_min J, ∑ n ∈ Finset.Ioo (-L) L, psi j l n * co3 (W' j) n l (i - (L - 1)) := by
    rw [Finset.mul_sum, Finset.mul_sum, ← Finset.sum_add_distrib]
    refine Finset.sum_congr rfl fun j hj => ?_
    rw [Finset.mem_Icc] at hj
    obtain ⟨e, e1, e2, e3⟩ := hW j hj.1 hj.2
    rw [Finset.mul_sum, Finset.mul_sum, ← Finset.sum_add_distrib]
    refine Finset.sum_congr rfl fun n _ => ?_
    rw [e, Arr3.lin_co e1 e2 e3]
    ring
  rw [this]
  ring

theorem Px.lin_re {a d : ℂ} (ha : a.im = 0) (hd : d.im = 0) (p q : Px) : (p.lin a d q).re = p.re.lin a d q.re := by
  unfold Px.re Px.lin
  congr 1
  funext i
  apply Complex.ext <;> simp [ha, hd]

theorem Px.ofArr2_lin {a d k : ℂ} {x y : Arr2 ℂ} (hr : x.r = y.r) (hc : x.c = y.c) :
    Px.ofArr2 ((x.lin a d y).map fun t => t * k) = (Px.ofArr2 (x.map fun t => t * k)).lin a d (Px.ofArr2 (y.map fun t => t * k)) := by
  unfold Px.ofArr2 Px.lin
  refine congrArg₂ Px.mk rfl (funext fun idx => ?_)
  dsimp only
  split
  · rename_i i j
    rw [Arr2.map_v _ (by simp), Arr2.map_v _ (by simp), Arr2.map_v _ (by simp)]
    unfold Arr2.lin
    by_cases h : 0 ≤ i ∧ i < x.r ∧ 0 ≤ j ∧ j < x.c
    · rw [Arr2.of_v _ _ _ _ _ h]; ring
    · rw [Arr2.of_out _ _ _ _ _ h, x.junk _ _ h, y.junk _ _ (by rw [← hr, ← hc]; exact h)]; simp
  · simp

theorem mapM_zip {α β : Type} {m m' m'' : α → Py β} (g : β → β → β) : ∀ {l : List α} {xs ys : List β},
    l.mapM m = .ok xs → l.mapM m' = .ok ys →
    (∀ i ∈ l, ∀ x y, m i = .ok x → m' i = .ok y → m'' i = .ok (g x y)) → l.mapM m'' = .ok (List.zipWith g xs ys)
  | [], _, _, h, h', _ => by cases h; cases h'; rfl
  | i :: l, _, _, h, h', hg => by
    rw [List.mapM_cons] at h h' ⊢
    obtain ⟨x, hx, h⟩ := Py.bind_eq_ok.1 h
    obtain ⟨xs, hxs, h⟩ := Py.bind_eq_ok.1 h
    obtain ⟨y, hy, h'⟩ := Py.bind_eq_ok.1 h'
    obtain ⟨ys, hys, h'⟩ := Py.bind_eq_ok.1 h'
    cases h; cases h'
    rw [hg i (by simp) x y hx hy, Py.bind_ok, mapM_zip g hxs hys fun j hj => hg j (by simp [hj]), Py.bind_ok]
    rfl

theorem listGet_zip {β : Type} {g : β → β → β} {xs ys : List β} (hl : xs.length = ys.length) {i : ℤ} {x y : β}
    (hx : listGet xs i = .ok x) (hy : listGet ys i = .ok y) : listGet (List.zipWith g xs ys) i = .ok (g x y) := by
  unfold listGet at *
  simp only [List.getElem?_zipWith, List.length_zipWith, hl, min_self] at *
  split_ifs at *
  all_goals
    revert hx hy
    split
    · split
      · intro hx hy
        cases hx; cases hy
        simp [*]
      · intro _ h; cases h
    · intro h; cases h

section
variable {jm : JMax} {c : Cfg} {J : ℤ}

/-- the shape checks depend on the shapes only -/
theorem shape_check_congr {E : Shapes} {w w' : List Px} {s s' : Px} {L N J_min : ℤ} {lam : ℝ} {sampling : String}
    {nside : Option ℤ} {mr : Bool} (hs : s.shape = s'.shape) (hl : w.map Px.shape = w'.map Px.shape) :
    wavelet_shape_check jm E w s L N J_min lam sampling nside mr =
      wavelet_shape_check jm E w' s' L N J_min lam sampling nside mr := by
  have hlen : w.length = w'.length := by simpa using congrArg List.length hl
  have hget : ∀ (i : ℤ) (k : List ℤ → Py Unit), (listGet w i >>= fun p => k p.shape) = (listGet w' i >>= fun p => k p.shape) := by
    intro i k
    have h2 : ∀ n : ℕ, (w[n]?).map Px.shape = (w'[n]?).map Px.shape := fun n => by
      rw [← List.getElem?_map, ← List.getElem?_map, hl]
    unfold listGet
    rw [hlen]
    split_ifs
    · have := h2 i.toNat
      revert this
      rcases w[i.toNat]? with _ | x <;> rcases w'[i.toNat]? with _ | y <;> intro h <;> simp_all
    · have := h2 (i + (w'.length : ℤ)).toNat
      revert this
      rcases w[(i + (w'.length : ℤ)).toNat]? with _ | x <;> rcases w'[(i + (w'.length : ℤ)).toNat]? with _ | y <;> intro h <;> simp_all
    · rfl
  unfold wavelet_shape_check
  rw [hs, hlen]
  refine congrArg _ (funext fun nj => ?_)
  refine congrArg _ (funext fun _ => ?_)
  refine congrArg _ (funext fun s => ?_)
  refine congrArg _ (funext fun _ => ?_)
  refine congrArg _ (funext fun J => ?_)
  refine foldlM_congr' (fun _ j _ => ?_) ()
  exact hget _ fun sh => f_wav_j E L j N lam sampling nside mr >>= fun s => pyAssert (sh = s)

end

end S2wav

namespace S2wav.Toy
open Classical

theorem ofReal_im_zero {a : ℂ} (h : a.im = 0) : a = ((a.re : ℝ) : ℂ) := Complex.ext rfl (by simp [h])

theorem pixel_lin {reality : Bool} {a d : ℂ} (hr : reality = true → a.im = 0 ∧ d.im = 0) {x y : Arr2 ℂ} (h1 : x.r = y.r)
    (h2 : x.c = y.c) (l m : ℤ) : pixel reality (x.lin a d y) l m = a * pixel reality x l m + d * pixel reality y l m := by
  unfold pixel
  simp only [Arr2.lin_co h1 h2]
  cases reality
  · simp only [Bool.false_eq_true, if_false]
    split_ifs <;> ring
  · obtain ⟨ha, hd⟩ := hr rfl
    obtain ⟨a, rfl⟩ : ∃ r : ℝ, a = r := ⟨_, ofReal_im_zero ha⟩
    obtain ⟨d, rfl⟩ : ∃ r : ℝ, d = r := ⟨_, ofReal_im_zero hd⟩
    simp only [if_true, Complex.add_re, Complex.add_im, Complex.re_ofReal_mul, Complex.im_ofReal_mul]
    split_ifs <;> push_cast <;> ring

theorem sphInv_lin {reality : Bool} {a d : ℂ} (hr : reality = true → a.im = 0 ∧ d.im = 0) {x y : Arr2 ℂ} (h1 : x.r = y.r)
    (h2 : x.c = y.c) (L : ℤ) : sphInv reality (x.lin a d y) L = (sphInv reality x L).lin a d (sphInv reality y L) := by
  unfold sphInv Px.lin
  refine congrArg₂ Px.mk rfl (funext fun idx => ?_)
  dsimp only
  split
  · exact pixel_lin hr h1 h2 _ _
  · simp

theorem val_lin {reality : Bool} {a d : ℂ} (hr : reality = true → a.im = 0 ∧ d.im = 0) (p q : Px) (L l m : ℤ) :
    val reality (p.lin a d q) L l m = a * val reality p L l m + d * val reality q L l m := by
  unfold val Px.lin
  cases reality
  · simp only [Bool.false_eq_true, if_false]
  · obtain ⟨ha, hd⟩ := hr rfl
    obtain ⟨a, rfl⟩ : ∃ r : ℝ, a = r := ⟨_, ofReal_im_zero ha⟩
    obtain ⟨d, rfl⟩ : ∃ r : ℝ, d = r := ⟨_, ofReal_im_zero hd⟩
    simp only [if_true, Complex.add_re, Complex.re_ofReal_mul]
    push_cast; ring

theorem sphFwd_lin {reality : Bool} {a d : ℂ} (hr : reality = true → a.im = 0 ∧ d.im = 0) (p q : Px) (L : ℤ) :
    sphFwd reality (p.lin a d q) L = (sphFwd reality p L).lin a d (sphFwd reality q L) := by
  refine Arr2.ext_co rfl rfl fun l m => ?_
  rw [Arr2.lin_co (x := sphFwd reality p L) (y := sphFwd reality q L) rfl rfl, sphFwd_co, sphFwd_co, sphFwd_co]
  unfold coef
  simp only [val_lin hr]
  split_ifs <;> ring

theorem wigInv_lin {a d : ℂ} {x y : Arr3 ℂ} (h0 : x.d = y.d) (h1 : x.r = y.r) (h2 : x.c = y.c) (L N : ℤ) :
    wigInv (x.lin a d y) L N = (wigInv x L N).lin a d (wigInv y L N) := by
  unfold wigInv Px.lin
  refine congrArg₂ Px.mk rfl (funext fun idx => ?_)
  dsimp only
  split
  · rename_i k l i
    unfold Arr3.lin
    by_cases h : 0 ≤ k ∧ k < x.d ∧ 0 ≤ l ∧ l < x.r ∧ 0 ≤ i ∧ i < x.c
    · rw [Arr3.of_v _ _ _ _ _ _ _ h]
    · rw [Arr3.of_out _ _ _ _ _ _ _ h, x.junk _ _ _ h, y.junk _ _ _ (by rw [← h0, ← h1, ← h2]; exact h)]; simp
  · simp

theorem wigFwd_lin (a d : ℂ) (p q : Px) (L N L0 : ℤ) :
    wigFwd (p.lin a d q) L N L0 = (wigFwd p L N L0).lin a d (wigFwd q L N L0) := by
  refine Arr3.ext_co rfl rfl rfl fun n l m => ?_
  rw [Arr3.lin_co (x := wigFwd p L N L0) (y := wigFwd q L N L0) rfl rfl rfl, wigFwd_co, wigFwd_co, wigFwd_co]
  unfold Px.lin
  split_ifs <;> simp

theorem linear {b : Backend} (hb : IsToy b) {jm : JMax} {c : Cfg} (hR : b.Ready jm c) : (b.engine c).Linear c.reality := by
  rcases hb with ⟨mr, rfl⟩ | ⟨mr, rfl⟩ | rfl | rfl | rfl | rfl
  case inr.inr.inr.inl =>
    obtain ⟨-, k, hk⟩ := hR
    constructor
    · intro a d hr p q L x y _ hx hy
      simp only [Backend.engine, cEngine, hk, Py.bind_ok] at hx hy ⊢
      cases hx; cases hy
      exact congrArg _ (sphFwd_lin hr p q L)
    · intro a d hr x y L p q h1 h2 h3 h4 hx hy
      simp only [Backend.engine, cEngine, hk, Py.bind_ok] at hx hy ⊢
      cases hx; cases hy
      exact congrArg _ (sphInv_lin hr (h1.trans h2.symm) (h3.trans h4.symm) L)
    · intro a d _ p q L N L0 x y _ hx hy
      cases hx; cases hy
      exact congrArg _ (wigFwd_lin a d p q L N _)
    · intro a d _ x y L N L0 p q h1 h2 h3 h4 h5 h6 hx hy
      cases hx; cases hy
      exact congrArg _ (wigInv_lin (h1.trans h2.symm) (h3.trans h4.symm) (h5.trans h6.symm) L N)
  all_goals
    constructor
    · intro a d hr p q L x y _ hx hy
      cases hx; cases hy
      exact congrArg _ (sphFwd_lin hr p q L)
    · intro a d hr x y L p q h1 h2 h3 h4 hx hy
      cases hx; cases hy
      exact congrArg _ (sphInv_lin hr (h1.trans h2.symm) (h3.trans h4.symm) L)
    · intro a d _ p q L N L0 x y _ hx hy
      cases hx; cases hy
      exact congrArg _ (wigFwd_lin a d p q L N _)
    · intro a d _ x y L N L0 p q h1 h2 h3 h4 h5 h6 hx hy
      cases hx; cases hy
      exact congrArg _ (wigInv_lin (h1.trans h2.symm) (h3.trans h4.symm) (h5.trans h6.symm) L N)

end S2wav.Toy
