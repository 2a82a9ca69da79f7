import Mathlib.Algebra.BigOperators.Intervals
import Mathlib.Algebra.Order.BigOperators.Group.Finset
import Mathlib.Data.Int.Interval
import Mathlib.Tactic.Ring
import Mathlib.Tactic.Linarith

/-!
# The Python / NumPy fragment used by s2wav

Python exceptions are values (`Py = Except PyErr`).  Arrays carry their shape; entries outside the shape are
`0` by an invariant (`junk`), so two arrays are equal iff shapes and in-range entries agree.  Reads and writes go
through `Arr*.get` / `Arr*.set`, which implement Python's negative-index wrap-around and raise `indexError`.
-/

namespace S2wav

/-- The exceptions that can escape from the modelled code. `nan` is not a Python exception: it stands for
"a floating point NaN/inf was produced" (e.g. `np.sqrt` of a negative number). -/
inductive PyErr
  | valueError | indexError | zeroDivision | assertion | typeError | overflow | unboundLocal | nan
  deriving DecidableEq, Repr

/-- A Python computation: a value or an exception. -/
abbrev Py := Except PyErr

@[simp] theorem Py.bind_ok {α β} (a : α) (f : α → Py β) : ((Except.ok a : Py α) >>= f) = f a := rfl
@[simp] theorem Py.bind_error {α β} (e : PyErr) (f : α → Py β) :
    ((Except.error e : Py α) >>= f) = Except.error e := rfl
@[simp] theorem Py.pure_eq {α} (a : α) : (pure a : Py α) = Except.ok a := rfl
@[simp] theorem Py.map_ok {α β} (a : α) (f : α → β) : f <$> (Except.ok a : Py α) = Except.ok (f a) := rfl
@[simp] theorem Py.map_error {α β} (e : PyErr) (f : α → β) :
    f <$> (Except.error e : Py α) = Except.error e := rfl
@[simp] theorem Py.throw_eq {α} (e : PyErr) : (throw e : Py α) = Except.error e := rfl

theorem Py.bind_eq_ok {α β} {x : Py α} {f : α → Py β} {b : β} :
    (x >>= f) = .ok b ↔ ∃ a, x = .ok a ∧ f a = .ok b := by
  cases x <;> simp

/-- Python's `range(a, b, s)` for a positive step `s`. -/
def pyRange (a b : ℤ) (s : ℤ := 1) : List ℤ :=
  (List.range ((b - a + s - 1) / s).toNat).map fun k : ℕ => a + (k : ℤ) * s

/-- Python list indexing `l[i]` (negative indices wrap). -/
def listGet {α} (l : List α) (i : ℤ) : Py α :=
  if 0 ≤ i then (match l[i.toNat]? with | some x => .ok x | none => .error .indexError)
  else if 0 ≤ i + l.length then
    (match l[(i + l.length).toNat]? with | some x => .ok x | none => .error .indexError)
  else .error .indexError

/-- Python list item assignment `l[i] = x`. -/
def listSet {α} (l : List α) (i : ℤ) (x : α) : Py (List α) :=
  if 0 ≤ i ∧ i < l.length then .ok (l.set i.toNat x)
  else if i < 0 ∧ 0 ≤ i + l.length then .ok (l.set (i + l.length).toNat x)
  else .error .indexError

/-- using an optional argument that must not be `None` -/
def unNone {α} : Option α → Py α
  | none => .error .typeError
  | some x => .ok x

/-- Python integer indexing into an axis of length `n`: wraps negatives, raises `IndexError` outside. -/
def pyIdx (n i : ℤ) : Py ℤ :=
  if 0 ≤ i ∧ i < n then .ok i
  else if i < 0 ∧ 0 ≤ i + n then .ok (i + n)
  else .error .indexError

/-- A slice already resolved against an axis (what CPython's `slice.indices` yields, step > 0). -/
structure Sl where
  start : ℤ
  len : ℤ
  step : ℤ

/-- One bound of a slice resolved against an axis of length `n`. -/
def slBound (n : ℤ) (i : ℤ) : ℤ := if i < 0 then max (i + n) 0 else min i n

/-- `start:stop:step` on an axis of length `n`; `none` is an omitted bound. `step > 0`. -/
def mkSl (n : ℤ) (start stop : Option ℤ) (step : ℤ := 1) : Sl :=
  let a := match start with | none => 0 | some i => slBound n i
  let b := match stop with | none => n | some i => slBound n i
  { start := a, len := max 0 ((b - a + step - 1) / step), step := step }

/-- `i` is one of the positions selected by the slice. -/
def Sl.mem (s : Sl) (i : ℤ) : Prop :=
  (i - s.start) % s.step = 0 ∧ 0 ≤ (i - s.start) / s.step ∧ (i - s.start) / s.step < s.len

instance (s : Sl) (i : ℤ) : Decidable (s.mem i) := by unfold Sl.mem; infer_instance

/-- position of `i` within the slice -/
def Sl.pos (s : Sl) (i : ℤ) : ℤ := (i - s.start) / s.step

/-- the axis position of the `k`-th selected element -/
def Sl.at (s : Sl) (k : ℤ) : ℤ := s.start + k * s.step

/-- Broadcast two axis lengths as NumPy does for a shared einsum label: equal, or one of them 1. -/
def bdim (a b : ℤ) : Py ℤ :=
  if a = b then .ok a else if a = 1 then .ok b else if b = 1 then .ok a else .error .valueError

/-- the index actually read on an axis of length `d` when the broadcast index is `i` -/
def bix (d i : ℤ) : ℤ := if d = 1 then 0 else i

section arrays
variable {α : Type} [Zero α]

/-- 1-d NumPy array. -/
structure Arr1 (α : Type) [Zero α] where
  n : ℤ
  v : ℤ → α
  junk : ∀ i, ¬ (0 ≤ i ∧ i < n) → v i = 0

/-- 2-d NumPy array of shape `(r, c)`. -/
structure Arr2 (α : Type) [Zero α] where
  r : ℤ
  c : ℤ
  v : ℤ → ℤ → α
  junk : ∀ i j, ¬ (0 ≤ i ∧ i < r ∧ 0 ≤ j ∧ j < c) → v i j = 0

/-- 3-d NumPy array of shape `(d, r, c)`. -/
structure Arr3 (α : Type) [Zero α] where
  d : ℤ
  r : ℤ
  c : ℤ
  v : ℤ → ℤ → ℤ → α
  junk : ∀ k i j, ¬ (0 ≤ k ∧ k < d ∧ 0 ≤ i ∧ i < r ∧ 0 ≤ j ∧ j < c) → v k i j = 0

/-- array of length `n` with entries `f i` -/
def Arr1.of (n : ℤ) (f : ℤ → α) : Arr1 α where
  n := n
  v i := if 0 ≤ i ∧ i < n then f i else 0
  junk _ h := if_neg h

/-- array of shape `(r, c)` with entries `f i j` -/
def Arr2.of (r c : ℤ) (f : ℤ → ℤ → α) : Arr2 α where
  r := r
  c := c
  v i j := if 0 ≤ i ∧ i < r ∧ 0 ≤ j ∧ j < c then f i j else 0
  junk _ _ h := if_neg h

/-- array of shape `(d, r, c)` with entries `f k i j` -/
def Arr3.of (d r c : ℤ) (f : ℤ → ℤ → ℤ → α) : Arr3 α where
  d := d
  r := r
  c := c
  v k i j := if 0 ≤ k ∧ k < d ∧ 0 ≤ i ∧ i < r ∧ 0 ≤ j ∧ j < c then f k i j else 0
  junk _ _ _ h := if_neg h

@[simp] theorem Arr1.of_n (n : ℤ) (f : ℤ → α) : (Arr1.of n f).n = n := rfl
@[simp] theorem Arr2.of_r (r c : ℤ) (f : ℤ → ℤ → α) : (Arr2.of r c f).r = r := rfl
@[simp] theorem Arr2.of_c (r c : ℤ) (f : ℤ → ℤ → α) : (Arr2.of r c f).c = c := rfl
@[simp] theorem Arr3.of_d (d r c : ℤ) (f : ℤ → ℤ → ℤ → α) : (Arr3.of d r c f).d = d := rfl
@[simp] theorem Arr3.of_r (d r c : ℤ) (f : ℤ → ℤ → ℤ → α) : (Arr3.of d r c f).r = r := rfl
@[simp] theorem Arr3.of_c (d r c : ℤ) (f : ℤ → ℤ → ℤ → α) : (Arr3.of d r c f).c = c := rfl

theorem Arr1.of_v (n : ℤ) (f : ℤ → α) (i : ℤ) (h : 0 ≤ i ∧ i < n) : (Arr1.of n f).v i = f i := if_pos h
theorem Arr2.of_v (r c : ℤ) (f : ℤ → ℤ → α) (i j : ℤ) (h : 0 ≤ i ∧ i < r ∧ 0 ≤ j ∧ j < c) :
    (Arr2.of r c f).v i j = f i j := if_pos h
theorem Arr3.of_v (d r c : ℤ) (f : ℤ → ℤ → ℤ → α) (k i j : ℤ)
    (h : 0 ≤ k ∧ k < d ∧ 0 ≤ i ∧ i < r ∧ 0 ≤ j ∧ j < c) : (Arr3.of d r c f).v k i j = f k i j := if_pos h

theorem Arr1.ext' {a b : Arr1 α} (hn : a.n = b.n) (h : ∀ i, 0 ≤ i → i < a.n → a.v i = b.v i) : a = b := by
  obtain ⟨n, v, hv⟩ := a; obtain ⟨n', v', hv'⟩ := b
  simp only at hn; subst hn
  have : v = v' := by
    funext i
    by_cases hi : 0 ≤ i ∧ i < n
    · exact h i hi.1 hi.2
    · rw [hv i hi, hv' i hi]
  subst this; rfl

theorem Arr2.ext' {a b : Arr2 α} (hr : a.r = b.r) (hc : a.c = b.c)
    (h : ∀ i j, 0 ≤ i → i < a.r → 0 ≤ j → j < a.c → a.v i j = b.v i j) : a = b := by
  obtain ⟨r, c, v, hv⟩ := a; obtain ⟨r', c', v', hv'⟩ := b
  simp only at hr hc; subst hr; subst hc
  have : v = v' := by
    funext i j
    by_cases hi : 0 ≤ i ∧ i < r ∧ 0 ≤ j ∧ j < c
    · exact h i j hi.1 hi.2.1 hi.2.2.1 hi.2.2.2
    · rw [hv i j hi, hv' i j hi]
  subst this; rfl

theorem Arr3.ext' {a b : Arr3 α} (hd : a.d = b.d) (hr : a.r = b.r) (hc : a.c = b.c)
    (h : ∀ k i j, 0 ≤ k → k < a.d → 0 ≤ i → i < a.r → 0 ≤ j → j < a.c → a.v k i j = b.v k i j) : a = b := by
  obtain ⟨d, r, c, v, hv⟩ := a; obtain ⟨d', r', c', v', hv'⟩ := b
  simp only at hd hr hc; subst hd; subst hr; subst hc
  have : v = v' := by
    funext k i j
    by_cases hi : 0 ≤ k ∧ k < d ∧ 0 ≤ i ∧ i < r ∧ 0 ≤ j ∧ j < c
    · exact h k i j hi.1 hi.2.1 hi.2.2.1 hi.2.2.2.1 hi.2.2.2.2.1 hi.2.2.2.2.2
    · rw [hv k i j hi, hv' k i j hi]
  subst this; rfl

/-- `np.zeros(n)`; negative dimensions raise `ValueError`. -/
def zeros1 (n : ℤ) : Py (Arr1 α) :=
  if n < 0 then .error .valueError else .ok (Arr1.of n fun _ => 0)

/-- `np.zeros((r, c))`; negative dimensions raise `ValueError`. -/
def zeros2 (r c : ℤ) : Py (Arr2 α) :=
  if r < 0 ∨ c < 0 then .error .valueError else .ok (Arr2.of r c fun _ _ => 0)

/-- `np.zeros((d, r, c))`; negative dimensions raise `ValueError`. -/
def zeros3 (d r c : ℤ) : Py (Arr3 α) :=
  if d < 0 ∨ r < 0 ∨ c < 0 then .error .valueError else .ok (Arr3.of d r c fun _ _ _ => 0)

/-- `a[i]` -/
def Arr1.get (a : Arr1 α) (i : ℤ) : Py α := do
  let i ← pyIdx a.n i
  .ok (a.v i)

/-- `a[i, j]` -/
def Arr2.get (a : Arr2 α) (i j : ℤ) : Py α := do
  let i ← pyIdx a.r i
  let j ← pyIdx a.c j
  .ok (a.v i j)

/-- `a[k, i, j]` -/
def Arr3.get (a : Arr3 α) (k i j : ℤ) : Py α := do
  let k ← pyIdx a.d k
  let i ← pyIdx a.r i
  let j ← pyIdx a.c j
  .ok (a.v k i j)

/-- `a[i] = x` -/
def Arr1.set (a : Arr1 α) (i : ℤ) (x : α) : Py (Arr1 α) := do
  let i ← pyIdx a.n i
  .ok (Arr1.of a.n fun i' => if i' = i then x else a.v i')

/-- `a[i, j] = x` -/
def Arr2.set (a : Arr2 α) (i j : ℤ) (x : α) : Py (Arr2 α) := do
  let i ← pyIdx a.r i
  let j ← pyIdx a.c j
  .ok (Arr2.of a.r a.c fun i' j' => if i' = i ∧ j' = j then x else a.v i' j')

/-- `a[k, i, j] = x` -/
def Arr3.set (a : Arr3 α) (k i j : ℤ) (x : α) : Py (Arr3 α) := do
  let k ← pyIdx a.d k
  let i ← pyIdx a.r i
  let j ← pyIdx a.c j
  .ok (Arr3.of a.d a.r a.c fun k' i' j' => if k' = k ∧ i' = i ∧ j' = j then x else a.v k' i' j')

/-- `a[s]` -/
def Arr1.slice (a : Arr1 α) (s : Sl) : Arr1 α := Arr1.of s.len fun i => a.v (s.at i)

/-- `a[s, t]` -/
def Arr2.slice (a : Arr2 α) (s t : Sl) : Arr2 α := Arr2.of s.len t.len fun i j => a.v (s.at i) (t.at j)

/-- `a[i]` for an integer `i`: a row. -/
def Arr2.row (a : Arr2 α) (i : ℤ) : Py (Arr1 α) := do
  let i ← pyIdx a.r i
  .ok (Arr1.of a.c fun j => a.v i j)

/-- `a[k, s, t]` for an integer `k` and slices `s`, `t`. -/
def Arr3.sliceAt (a : Arr3 α) (k : ℤ) (s t : Sl) : Py (Arr2 α) := do
  let k ← pyIdx a.d k
  .ok (Arr2.of s.len t.len fun i j => a.v k (s.at i) (t.at j))

/-- JAX integer indexing into an axis of length `n`: wraps negatives, then clamps into range (no exception). -/
def jaxIdx (n i : ℤ) : ℤ := max 0 (min (if i < 0 then i + n else i) (n - 1))

/-- JAX `a[k, s, t]` for an integer `k` and slices `s`, `t`. -/
def Arr3.sliceAtJax (a : Arr3 α) (k : ℤ) (s t : Sl) : Arr2 α :=
  Arr2.of s.len t.len fun i j => a.v (jaxIdx a.d k) (s.at i) (t.at j)

/-- `a[s, t, u]` -/
def Arr3.slice (a : Arr3 α) (s t u : Sl) : Arr3 α :=
  Arr3.of s.len t.len u.len fun k i j => a.v (s.at k) (t.at i) (u.at j)

/-- `a[s] = x` for a scalar `x` -/
def Arr1.fill (a : Arr1 α) (s : Sl) (x : α) : Arr1 α :=
  Arr1.of a.n fun i => if s.mem i then x else a.v i

/-- `a[s, t, u] = x` for a scalar `x` -/
def Arr3.fill (a : Arr3 α) (s t u : Sl) (x : α) : Arr3 α :=
  Arr3.of a.d a.r a.c fun k i j => if s.mem k ∧ t.mem i ∧ u.mem j then x else a.v k i j

/-- can an axis of length `src` be broadcast to `dst` in an assignment? -/
def bcast (src dst : ℤ) : Prop := src = dst ∨ src = 1

instance (a b : ℤ) : Decidable (bcast a b) := by unfold bcast; infer_instance

/-- `a[s, t] = w` with NumPy broadcasting of `w`. -/
def Arr2.assign (a : Arr2 α) (s t : Sl) (w : Arr2 α) : Py (Arr2 α) :=
  if bcast w.r s.len ∧ bcast w.c t.len then
    .ok (Arr2.of a.r a.c fun i j =>
      if s.mem i ∧ t.mem j then w.v (bix w.r (s.pos i)) (bix w.c (t.pos j)) else a.v i j)
  else .error .valueError

/-- `a[s, t, u] = w` with NumPy broadcasting of `w`. -/
def Arr3.assign (a : Arr3 α) (s t u : Sl) (w : Arr3 α) : Py (Arr3 α) :=
  if bcast w.d s.len ∧ bcast w.r t.len ∧ bcast w.c u.len then
    .ok (Arr3.of a.d a.r a.c fun k i j =>
      if s.mem k ∧ t.mem i ∧ u.mem j then
        w.v (bix w.d (s.pos k)) (bix w.r (t.pos i)) (bix w.c (u.pos j)) else a.v k i j)
  else .error .valueError

/-- `a[i, t] = w` (or `a.at[i, t].set(w)`) for an integer row `i`, with broadcasting of `w`. -/
def Arr2.setRow (a : Arr2 α) (i : ℤ) (t : Sl) (w : Arr1 α) : Py (Arr2 α) := do
  let i ← pyIdx a.r i
  if bcast w.n t.len then
    .ok (Arr2.of a.r a.c fun i' j => if i' = i ∧ t.mem j then w.v (bix w.n (t.pos j)) else a.v i' j)
  else .error .valueError

/-- `np.roll(a, -1, axis=0)` -/
def Arr2.rollUp (a : Arr2 α) : Arr2 α := Arr2.of a.r a.c fun i j => a.v ((i + 1) % a.r) j

/-- `a.reshape(1, n)` of a 1-d array, kept as a 1-d array: the number of elements must be `n`. -/
def Arr1.reshapeRow (a : Arr1 α) (n : ℤ) : Py (Arr1 α) :=
  if a.n = n then .ok a else .error .valueError

/-- entrywise operation on two 1-d arrays, with broadcasting -/
def Arr1.zip {β γ : Type} [Zero β] [Zero γ] (f : α → β → γ) (a : Arr1 α) (b : Arr1 β) : Py (Arr1 γ) := do
  let n ← bdim a.n b.n
  .ok (Arr1.of n fun i => f (a.v (bix a.n i)) (b.v (bix b.n i)))

/-- entrywise operation on two arrays of the same shape -/
def Arr2.zip {β γ : Type} [Zero β] [Zero γ] (f : α → β → γ) (a : Arr2 α) (b : Arr2 β) : Py (Arr2 γ) :=
  if a.r = b.r ∧ a.c = b.c then .ok (Arr2.of a.r a.c fun i j => f (a.v i j) (b.v i j)) else .error .valueError

/-- entrywise function -/
def Arr1.map {β : Type} [Zero β] (f : α → β) (a : Arr1 α) : Arr1 β := Arr1.of a.n fun i => f (a.v i)

/-- entrywise function -/
def Arr2.map {β : Type} [Zero β] (f : α → β) (a : Arr2 α) : Arr2 β := Arr2.of a.r a.c fun i j => f (a.v i j)

/-- entrywise function -/
def Arr3.map {β : Type} [Zero β] (f : α → β) (a : Arr3 α) : Arr3 β :=
  Arr3.of a.d a.r a.c fun k i j => f (a.v k i j)

/-- `np.arange(a, b)` as an array over `α` via a cast -/
def arange (cast : ℤ → α) (a b : ℤ) : Arr1 α := Arr1.of (max 0 (b - a)) fun i => cast (a + i)

end arrays

section algebra
variable {α : Type} [NonUnitalNonAssocSemiring α]

/-- `a[s, t] += w` with NumPy broadcasting of `w`. -/
def Arr2.addAt (a : Arr2 α) (s t : Sl) (w : Arr2 α) : Py (Arr2 α) :=
  if bcast w.r s.len ∧ bcast w.c t.len then
    .ok (Arr2.of a.r a.c fun i j =>
      if s.mem i ∧ t.mem j then a.v i j + w.v (bix w.r (s.pos i)) (bix w.c (t.pos j)) else a.v i j)
  else .error .valueError

/-- `a[s, t, u] += w` (also JAX's `a.at[s, t, u].add(w)`) with broadcasting of `w`. -/
def Arr3.addAt (a : Arr3 α) (s t u : Sl) (w : Arr3 α) : Py (Arr3 α) :=
  if bcast w.d s.len ∧ bcast w.r t.len ∧ bcast w.c u.len then
    .ok (Arr3.of a.d a.r a.c fun k i j =>
      if s.mem k ∧ t.mem i ∧ u.mem j then
        a.v k i j + w.v (bix w.d (s.pos k)) (bix w.r (t.pos i)) (bix w.c (u.pos j)) else a.v k i j)
  else .error .valueError

/-- `a * b` for `a` of shape `(r, c)` and `b` of shape `(c,)` -/
def Arr2.mulRow (a : Arr2 α) (b : Arr1 α) : Py (Arr2 α) :=
  if a.c = b.n then .ok (Arr2.of a.r a.c fun i j => a.v i j * b.v j) else .error .valueError

/-- `einsum("ln,nlm->lm", A, B)` -/
def einsum_ln_nlm (A : Arr2 α) (B : Arr3 α) : Py (Arr2 α) := do
  let l ← bdim A.r B.r
  let n ← bdim A.c B.d
  .ok (Arr2.of l B.c fun i m =>
    ∑ k ∈ Finset.Ico 0 n, A.v (bix A.r i) (bix A.c k) * B.v (bix B.d k) (bix B.r i) m)

/-- `einsum("lm,ln->nlm", A, B)` -/
def einsum_lm_ln (A B : Arr2 α) : Py (Arr3 α) := do
  let l ← bdim A.r B.r
  .ok (Arr3.of B.c l A.c fun n i m => A.v (bix A.r i) m * B.v (bix B.r i) n)

/-- `einsum("lm,l->lm", A, b)` -/
def einsum_lm_l (A : Arr2 α) (b : Arr1 α) : Py (Arr2 α) := do
  let l ← bdim A.r b.n
  .ok (Arr2.of l A.c fun i m => A.v (bix A.r i) m * b.v (bix b.n i))

/-- `einsum("jln,l->jln", A, b)` (the same contraction as `"ijk,j->ijk"`) -/
def einsum_jln_l (A : Arr3 α) (b : Arr1 α) : Py (Arr3 α) := do
  let l ← bdim A.r b.n
  .ok (Arr3.of A.d l A.c fun j i n => A.v j (bix A.r i) n * b.v (bix b.n i))

/-- `einsum("ij,jk->ijk", A, B)` -/
def einsum_ij_jk (A B : Arr2 α) : Py (Arr3 α) := do
  let j ← bdim A.c B.r
  .ok (Arr3.of A.r j B.c fun i k m => A.v i (bix A.c k) * B.v (bix B.r k) m)

end algebra

/-! ## Basic facts about ranges and loops -/

theorem pyRange_one (a b : ℤ) : pyRange a b = (List.range (b - a).toNat).map fun k : ℕ => a + (k : ℤ) := by
  unfold pyRange
  have : (b - a + 1 - 1) / 1 = b - a := by simp
  rw [this]; simp

theorem pyRange_empty {a b : ℤ} (h : b ≤ a) : pyRange a b = [] := by
  rw [pyRange_one]
  have : (b - a).toNat = 0 := by omega
  rw [this]; rfl

theorem pyRange_succ {a b : ℤ} (h : a < b) : pyRange a b = a :: pyRange (a + 1) b := by
  rw [pyRange_one, pyRange_one]
  have : (b - a).toNat = (b - (a + 1)).toNat + 1 := by omega
  rw [this, List.range_succ_eq_map]
  simp only [List.map_cons, List.map_map, Nat.cast_zero, add_zero]
  congr 1
  apply List.map_congr_left
  intro k _
  simp only [Function.comp, Nat.succ_eq_add_one, Nat.cast_add, Nat.cast_one]; ring

theorem mem_pyRange {a b i : ℤ} : i ∈ pyRange a b ↔ a ≤ i ∧ i < b := by
  rw [pyRange_one]
  simp only [List.mem_map, List.mem_range]
  constructor
  · rintro ⟨k, hk, rfl⟩; omega
  · rintro ⟨h1, h2⟩; exact ⟨(i - a).toNat, by omega, by omega⟩

@[simp] theorem length_pyRange (a b : ℤ) : (pyRange a b).length = (b - a).toNat := by
  rw [pyRange_one]; simp

theorem pyRange2_empty {a b : ℤ} (h : b ≤ a) : pyRange a b 2 = [] := by
  unfold pyRange
  have : ((b - a + 2 - 1) / 2).toNat = 0 := by omega
  rw [this]; rfl

theorem pyRange2_succ {a b : ℤ} (h : a < b) : pyRange a b 2 = a :: pyRange (a + 2) b 2 := by
  unfold pyRange
  have : ((b - a + 2 - 1) / 2).toNat = ((b - (a + 2) + 2 - 1) / 2).toNat + 1 := by omega
  rw [this, List.range_succ_eq_map]
  simp only [List.map_cons, List.map_map, Nat.cast_zero, zero_mul, add_zero]
  congr 1
  apply List.map_congr_left
  intro k _
  simp only [Function.comp, Nat.succ_eq_add_one, Nat.cast_add, Nat.cast_one]; ring

/-- Hoare rule for `for i in range(a, b): body`. -/
theorem range_loop {σ : Type} (P : ℤ → σ → Prop) {a b : ℤ} {body : σ → ℤ → Py σ} {s : σ}
    (hab : a ≤ b) (h0 : P a s)
    (hstep : ∀ i s, a ≤ i → i < b → P i s → ∃ s', body s i = .ok s' ∧ P (i + 1) s') :
    ∃ s', (pyRange a b).foldlM body s = .ok s' ∧ P b s' := by
  obtain ⟨k, hk⟩ : ∃ k : ℕ, (b - a).toNat = k := ⟨_, rfl⟩
  induction k generalizing a s with
  | zero =>
    have : a = b := by omega
    subst this
    exact ⟨s, by rw [pyRange_empty le_rfl]; rfl, h0⟩
  | succ k ih =>
    have hlt : a < b := by omega
    obtain ⟨s', hs', hP⟩ := hstep a s le_rfl hlt h0
    obtain ⟨s'', h1, h2⟩ := ih (a := a + 1) (s := s') (by omega) hP
      (fun i s hi hb hp => hstep i s (by omega) hb hp) (by omega)
    refine ⟨s'', ?_, h2⟩
    rw [pyRange_succ hlt, List.foldlM_cons, hs']
    exact h1

/-- As `range_loop`, also for possibly empty ranges. -/
theorem range_loop' {σ : Type} (P : ℤ → σ → Prop) {a b : ℤ} {body : σ → ℤ → Py σ} {s : σ}
    (h0 : P a s)
    (hstep : ∀ i s, a ≤ i → i < b → P i s → ∃ s', body s i = .ok s' ∧ P (i + 1) s') :
    ∃ s', (pyRange a b).foldlM body s = .ok s' ∧ P (max a b) s' := by
  rcases le_total a b with h | h
  · rw [max_eq_right h]; exact range_loop P h h0 hstep
  · rw [max_eq_left h, pyRange_empty h]; exact ⟨s, rfl, h0⟩

/-- Hoare rule for `for i in range(a, b, 2): body`; `P i` is the invariant before index `i`. -/
theorem range_loop2 {σ : Type} (P : ℤ → σ → Prop) {a b : ℤ} {body : σ → ℤ → Py σ} {s : σ}
    (h0 : P a s)
    (hstep : ∀ i s, a ≤ i → i < b → (i - a) % 2 = 0 → P i s → ∃ s', body s i = .ok s' ∧ P (i + 2) s') :
    ∃ s' i, (pyRange a b 2).foldlM body s = .ok s' ∧ a ≤ i ∧ b ≤ i ∧ (i - a) % 2 = 0 ∧ (i < b + 2 ∨ i = a) ∧ P i s' := by
  obtain ⟨k, hk⟩ : ∃ k : ℕ, ((b - a + 2 - 1) / 2).toNat = k := ⟨_, rfl⟩
  induction k generalizing a s with
  | zero =>
    have : b ≤ a := by omega
    exact ⟨s, a, by rw [pyRange2_empty this]; rfl, by omega, this, by simp, Or.inr rfl, h0⟩
  | succ k ih =>
    have hlt : a < b := by omega
    obtain ⟨s', hs', hP⟩ := hstep a s le_rfl hlt (by simp) h0
    obtain ⟨s'', i, h1, h2, h3, h4, h5, h6⟩ := ih (a := a + 2) (s := s') hP
      (fun i s hi hb hm hp => hstep i s (by omega) hb (by omega) hp) (by omega)
    refine ⟨s'', i, ?_, by omega, h3, by omega, ?_, h6⟩
    · rw [pyRange2_succ hlt, List.foldlM_cons, hs']
      exact h1
    · omega

end S2wav
