import Verif.Kde.Stats

/-!
# Kernels and kernel density estimation

Properties C125-C139.
-/

set_option linter.unusedSectionVars false

namespace Wafo.Kde

open Real MeasureTheory Set

/-! ### C125: kernels are densities -/

/-- C125.  For every kernel that can be chosen by name, in every dimension, `norm_kernel` is a density: it is never
negative and its integral is one. -/
theorem C125_density (k : Obj) (hk : k ∈ named) (d n : ℕ) (hd : d ≠ 0) (hn : n ≠ 0) :
    ∃ K : (Fin d → ℝ) → ℝ, (∀ x, normKernel k n x = .ok (K x)) ∧ (∀ x, 0 ≤ K x) ∧ ∫ x, K x = 1 := by
  obtain ⟨⟨c, hc, hcp, hi⟩, -⟩ := named_good k hk d n hd hn
  refine ⟨fun x => kernelRaw k.r x k.shape / c, fun x => by rw [normKernel, hc],
    fun x => div_nonneg (kernelRaw_nonneg _ _ _) hcp.le, ?_⟩
  rw [integral_div, hi, div_self hcp.ne']

/-- C125.  A name is looked up by its first four letters: the eleven kernels are found, anything else is a
`KeyError`. -/
theorem C125_names (name : String) :
    (∃ k ∈ named, lookup name = .ok k) ∨ lookup name = .error .keyError := by
  unfold lookup
  split <;> simp [named]

/-- C125.  Which kernel a name stands for. -/
theorem C125_table (name : String) (k : Obj) :
    lookup name = .ok k ↔ (name.toList.take 4, k) ∈ [("epan".toList, epan), ("biwe".toList, biwe), ("triw".toList, triw), ("p1ep".toList, p1ep), ("p1bi".toList, p1bi),
      ("p1tr".toList, p1tr), ("rect".toList, rect), ("tria".toList, tria), ("lapl".toList, lapl), ("logi".toList, logi), ("gaus".toList, gaus)] := by
  unfold lookup
  generalize name.toList.take 4 = l
  have key : ∀ s : String, String.ofList l = s ↔ l = s.toList := by
    intro s
    constructor
    · rintro rfl
      rw [String.toList_ofList]
    · rintro rfl
      rw [String.ofList_toList]
  split
  case h_12 h1 h2 h3 h4 h5 h6 h7 h8 h9 h10 h11 =>
    rw [key] at h1 h2 h3 h4 h5 h6 h7 h8 h9 h10 h11
    simp_all
  all_goals
    rename_i h
    rw [key] at h
    subst h
    simp [eq_comm]

example : lookup "gaussian" = .ok gaus ∧ lookup "epanechnikov" = .ok epan ∧ lookup "cauchy" = .error .keyError :=
  ⟨rfl, rfl, rfl⟩

/-- C125, refuted for other radii: `_KernelGaussian(r)` divides by `(2π r/4)^(d/2)`, while the integral of the kernel
is `(2π (r/4)²)^(d/2)`.  With `r = 16` the "normalised" kernel has the integral 2. -/
theorem C125_gauss_radius_refuted (m r R : ℝ) (o : Option ℝ) (hr : r = 16) :
    ∃ K : (Fin 1 → ℝ) → ℝ, (∀ x, normKernel ⟨.gaus, r, m, R, o⟩ 1 x = .ok (K x)) ∧ ∫ x, K x = 2 := by
  refine ⟨fun x => kernelRaw r x .gaus / (2 * π * (r / 4)) ^ (((1 : ℕ) : ℝ) / 2), fun x => rfl, ?_⟩
  rw [integral_div, integral_gaus 1 r (by rw [hr]; norm_num), hr, ← div_rpow (by positivity) (by positivity)]
  rw [show (2 * π * (16 / 4) ^ 2 / (2 * π * (16 / 4)) : ℝ) = 2 ^ (2 : ℝ) by
    have := pi_pos
    norm_num
    field_simp
    norm_num, ← rpow_mul (by norm_num)]
  norm_num

/-! ### C126: the default number of data -/

/-- C126, the part that holds: nine of the kernels do not look at `n`. -/
theorem C126_default_partial (k : Obj) (hk : k ∈ named) (h : k ≠ tria ∧ k ≠ logi) (d n : ℕ) :
    normFactor k.r d none k.shape = normFactor k.r d (some n) k.shape := by
  simp only [named, List.mem_cons, List.not_mem_nil, or_false] at hk
  rcases hk with rfl | rfl | rfl | rfl | rfl | rfl | rfl | rfl | rfl | rfl | rfl <;> first | rfl | simp at h

/-- C126, refuted: for the triangular and the logistic kernel `norm_factor(d)` raises `TypeError`, so does `hstt`
which calls it. -/
theorem C126_default_refuted (k : Obj) (hk : k = tria ∨ k = logi) (d : ℕ) (hd : d ≠ 0) :
    normFactor k.r d none k.shape = .error .typeError := by
  rcases hk with rfl | rfl <;> simp [normFactor, tria, logi, hd]

/-! ### C127: the moments of the kernels -/

/-- C127.  `stats = (mu2, R, Rdd)` are the second moment, the integral of the square and, where it is given, the
integral of the square of the second derivative of the kernel in one dimension. -/
theorem C127_stats (k : Obj) (hk : k ∈ named) : ∃ K : ℝ → ℝ,
    (∀ n x, n ≠ 0 → normKernel k (d := 1) n (fun _ => x) = .ok (K x)) ∧ ∫ x, x ^ 2 * K x = k.mu2 ∧ ∫ x, K x ^ 2 = k.R ∧
      ∀ v, k.Rdd = some v → ∫ x, deriv (deriv K) x ^ 2 = v :=
  norm1 k hk

/-- C127, refuted for the third number: for the triweight kernel the code says infinity, the integral is 35. -/
theorem C127_triweight_refuted : ∃ K : ℝ → ℝ,
    (∀ n x, normKernel triw (d := 1) n (fun _ => x) = .ok (K x)) ∧ ∫ x, deriv (deriv K) x ^ 2 = 35 ∧ triw.Rdd = none := by
  refine ⟨fun x => 35 / 32 * max (1 - x ^ 2) 0 ^ 3, ?_, triw_Rdd, rfl⟩
  intro n x
  simp only [normKernel, normFactor, kernelRaw, sphereVolume_one, triw]
  norm_num [Finset.prod_range_succ, Nat.factorial]
  ring

/-! ### C128: derivatives of the Gaussian kernel and functionals -/

/-- C128.  `deriv4_6_8_10(t, numout)` are the derivatives of order 4, 6, 8, ... of the standard normal density. -/
theorem C128_derivatives (t : ℝ) (numout i : ℕ) (hi : i < numout) :
    (deriv4 t numout)[i]? = some (iteratedDeriv (4 + 2 * i) (fun x => exp (-(x ^ 2) / 2) / √(2 * π)) t) :=
  deriv4_get t numout i hi

/-- C128.  The number of derivatives is `numout`, but never less than one. -/
theorem C128_count (t : ℝ) (numout : ℕ) : (deriv4 t numout).length = max numout 1 := by
  simp only [deriv4, List.length_map, derivPolys_length]
  omega

/-- C128.  `psi(r, sigma)` for even `r` is the integral of the derivative of order `r` of the normal density with
standard deviation `sigma` times this density. -/
theorem C128_psi (m : ℕ) (s : ℝ) (hs : 0 < s) :
    ∫ x, iteratedDeriv (2 * m) (fun x => exp (-(x / s) ^ 2 / 2) / (s * √(2 * π))) x
      * (exp (-(x / s) ^ 2 / 2) / (s * √(2 * π))) = psi (2 * m) s :=
  psi_integral m s hs

example : psi 4 1 = 3 / (8 * √π) := by
  norm_num [psi, Finset.prod_Ico_succ_top]
  ring

/-! ### C129: bandwidths -/

/-- Asymptotic mean integrated squared error: `R` and `mu2` of the kernel, `Rf` the integral of the square of the
second derivative of the density, `n` data and the bandwidth `h`. -/
noncomputable def amiseSpec (R mu2 Rf : ℝ) (n : ℕ) (h : ℝ) : ℝ := R / (n * h) + h ^ 4 * mu2 ^ 2 * Rf / 4

/-- C129.  `sigma * get_amise_constant(n)` minimises the asymptotic mean integrated squared error for a normal density
with standard deviation `sigma`, whose functional is `psi(4, sigma)`. -/
theorem C129_amise (k : Obj) (hk : k ∈ named) (n : ℕ) (hn : n ≠ 0) (s h : ℝ) (hs : 0 < s) (hh : 0 < h) :
    0 < s * amiseConstant k n ∧
    amiseSpec k.R k.mu2 (psi 4 s) n (s * amiseConstant k n) ≤ amiseSpec k.R k.mu2 (psi 4 s) n h := by
  have hpi : 0 < √π := sqrt_pos.mpr pi_pos
  have hpos : 0 < k.mu2 ∧ 0 < k.R := by
    simp only [named, List.mem_cons, List.not_mem_nil, or_false] at hk
    rcases hk with rfl | rfl | rfl | rfl | rfl | rfl | rfl | rfl | rfl | rfl | rfl <;>
      simp only [epan, biwe, triw, p1ep, p1bi, p1tr, rect, tria, gaus, lapl, logi] <;> constructor <;> positivity
  have hp4 : psi 4 s = 3 / (8 * √π * s ^ 5) := by
    norm_num [psi, Finset.prod_Ico_succ_top]
    field_simp
    norm_num
  have hn' : (0 : ℝ) < n := by exact_mod_cast Nat.pos_of_ne_zero hn
  have h0 : 0 < s * amiseConstant k n := by
    refine mul_pos hs (rpow_pos_of_pos ?_ _)
    have := hpos.1
    have := hpos.2
    positivity
  refine ⟨h0, ?_⟩
  rw [hp4]
  exact amise_min k.R k.mu2 _ n _ h hn hpos.1 (by positivity) h0 hh
    (amiseConstant_pow k n hn hpos.1 hpos.2 s hs)

/-- C129.  `hns` and `hos` follow a change of units: moving the data does not change them and a factor is passed on
with its absolute value. -/
theorem C129_units (k : Obj) (data : List ℝ) (hd : data ≠ []) (a b : ℝ) :
    hns k (data.map fun x => a * x + b) = |a| * hns k data ∧ hos k (data.map fun x => a * x + b) = |a| * hos k data := by
  refine ⟨hns_affine k data hd a b, ?_⟩
  rw [hos, hos, hns_affine k data hd a b, mul_div_assoc]

theorem sum_pairs (l m : List ℝ) :
    (l.map fun x => (m.map fun y => (x - y) ^ 2).sum).sum
      = m.length * (l.map fun x => x ^ 2).sum - 2 * l.sum * m.sum + l.length * (m.map fun x => x ^ 2).sum := by
  have hin (x : ℝ) : (m.map fun y => (x - y) ^ 2).sum = m.length * x ^ 2 - 2 * x * m.sum + (m.map fun x => x ^ 2).sum := by
    induction m with
    | nil => simp
    | cons y m ih => simp only [List.map_cons, List.sum_cons, ih, List.length_cons]; push_cast; ring
  simp only [hin]
  induction l with
  | nil => simp
  | cons x l ih => simp only [List.map_cons, List.sum_cons, ih, List.length_cons]; push_cast; ring

/-- C129.  The spread used by `hns` is the smaller of the unbiased standard deviation, here through the squared
differences of all pairs of data, and the interquartile range over 1.349; a zero interquartile range is ignored. -/
theorem C129_spread (k : Obj) (data : List ℝ) (hd : 2 ≤ data.length) :
    ∃ s : ℝ, 0 ≤ s ∧
      s ^ 2 * (2 * data.length * (data.length - 1)) = (data.map fun x => (data.map fun y => (x - y) ^ 2).sum).sum ∧
      (iqrange data = 0 → hns k data = s * amiseConstant k data.length) ∧
      (0 < iqrange data → hns k data = min s (iqrange data / 1.349) * amiseConstant k data.length) := by
  have hn : (2 : ℝ) ≤ data.length := by exact_mod_cast hd
  refine ⟨std data, sqrt_nonneg _, ?_, ?_, ?_⟩
  · rw [sum_pairs, std]
    have hdev (m : ℝ) : (data.map fun x => (x - m) ^ 2).sum
        = (data.map fun x => x ^ 2).sum - 2 * m * data.sum + data.length * m ^ 2 := by
      clear hd hn
      induction data with
      | nil => simp
      | cons y l ih => simp only [List.map_cons, List.sum_cons, ih, List.length_cons]; push_cast; ring
    have hnn : 0 ≤ (data.map fun x => (x - data.sum / data.length) ^ 2).sum := by
      apply List.sum_nonneg
      intro y hy
      obtain ⟨x, -, rfl⟩ := List.mem_map.mp hy
      positivity
    rw [sq_sqrt (div_nonneg hnn (by linarith)), hdev]
    have h1 : (data.length : ℝ) ≠ 0 := by linarith
    have h2 : (data.length : ℝ) - 1 ≠ 0 := by linarith
    field_simp
    ring
  · intro h
    simp only [hns]
    rw [if_neg (by rw [h]; exact lt_irrefl _)]
  · intro h
    simp only [hns]
    rw [if_pos h]

example : 2 ≤ ([1, 4, 4, 4, 9] : List ℝ).length := by simp

/-- C129.  `_get_g` cancels the leading terms of the bias of the estimate of the functional of order `r`: with
`order = r + 2` and the two functionals of opposite sign, `K^(r)(0) / (n g^(r+1)) + g² mu2 psi_{r+2} / 2 = 0`. -/
theorem C129_getG (K mu2 P : ℝ) (n r : ℕ) (hn : n ≠ 0) (hb : 0 < -2 * K / (mu2 * P * n)) :
    0 < getG K mu2 P n (r + 2) ∧
    K / (n * getG K mu2 P n (r + 2) ^ (r + 1)) + getG K mu2 P n (r + 2) ^ 2 / 2 * mu2 * P = 0 := by
  rcases getG_spec K mu2 P n (r + 2) hn hb with h | h
  · exact h
  · omega

example : (0 : ℝ) < -2 * (-15) / (1 * 3 * (10 : ℕ)) := by norm_num

/-! ### C130: the estimate is a density -/

theorem mkVec_ready (kernel : Obj) (hk : kernel ∈ named) {d n : ℕ} (hd : d ≠ 0) (hn : n ≠ 0) (data : Fin n → Fin d → ℝ)
    (dflt : Fin d → ℝ) (hdef : ∀ i, 0 < dflt i) (h : List ℝ) (hl : h.length = 1 ∨ h.length = d) (alpha : ℝ) :
    ∃ k, mkVec id kernel data dflt h alpha = .ok k ∧ Ready k ∧ k.kernel = kernel ∧ k.data = data := by
  have hh : ∃ hs : Fin d → ℝ, checkHs id d dflt h = .ok hs ∧ ∀ i, 0 < hs i := by
    rw [checkHs]
    by_cases h1 : h.length = 1
    · rw [if_pos h1]
      refine ⟨_, rfl, fun i => ?_⟩
      split_ifs with h2
      · exact hdef i
      · exact not_le.mp h2
    · rw [if_neg h1, if_pos (hl.resolve_left h1)]
      refine ⟨_, rfl, fun i => ?_⟩
      split_ifs with h2
      · exact hdef i
      · exact not_le.mp h2
  obtain ⟨hs, he, hpos⟩ := hh
  have hr := ready_vec hs hpos kernel data
  obtain ⟨k', h1, h2, h3, h4, -⟩ := setAlpha_ready _ hr alpha (named_good kernel hk d n hd hn) hn
  exact ⟨k', by rw [mkVec, he]; exact h1, h2, h3, h4⟩

theorem ready_density {d n : ℕ} (k : KDE d n) (hr : Ready k) (hk : k.kernel ∈ named) (hd : d ≠ 0) (hn : n ≠ 0) :
    ∃ f : (Fin d → ℝ) → ℝ, (∀ pts, k.evalPoints (fun _ => 1) 0 pts = .ok (pts.map f)) ∧ (∀ x, 0 ≤ f x) ∧
      ∫ x, f x = 1 := by
  obtain ⟨⟨c, hc, hcp, hi⟩, -⟩ := named_good k.kernel hk d n hd hn
  refine ⟨fun p => k.sumAt (fun _ => 1) 0 p / (k.deth * n * c), fun pts => evalPoints_eq k _ _ pts c hc, fun x => ?_,
    sumAt_integral k c hcp hi hr.det hr.inv hr.lam hn⟩
  exact div_nonneg (sumAt_nonneg k hr.lam _) (mul_nonneg (mul_nonneg hr.det.le n.cast_nonneg) hcp.le)

/-- C130.  For every named kernel, any data, one smoothing parameter or one for each dimension (those that are not
positive are replaced by the default), and any `alpha`, the estimate is a density: `eval_points` returns the values of
one function, which is never negative and whose integral is one. -/
theorem C130_density (kernel : Obj) (hk : kernel ∈ named) {d n : ℕ} (hd : d ≠ 0) (hn : n ≠ 0) (data : Fin n → Fin d → ℝ)
    (dflt : Fin d → ℝ) (hdef : ∀ i, 0 < dflt i) (h : List ℝ) (hl : h.length = 1 ∨ h.length = d) (alpha : ℝ) :
    ∃ k, mkVec id kernel data dflt h alpha = .ok k ∧
      ∃ f : (Fin d → ℝ) → ℝ, (∀ pts, k.evalPoints (fun _ => 1) 0 pts = .ok (pts.map f)) ∧ (∀ x, 0 ≤ f x) ∧
        ∫ x, f x = 1 := by
  obtain ⟨k, h1, h2, h3, h4⟩ := mkVec_ready kernel hk hd hn data dflt hdef h hl alpha
  exact ⟨k, h1, ready_density k h2 (h3 ▸ hk) hd hn⟩

/-- C130.  The same with a smoothing matrix with positive determinant. -/
theorem C130_density_matrix (kernel : Obj) (hk : kernel ∈ named) {d n : ℕ} (hd : d ≠ 0) (hn : n ≠ 0)
    (data : Fin n → Fin d → ℝ) (h : Matrix (Fin d) (Fin d) ℝ) (hdet : 0 < h.det) (alpha : ℝ) :
    ∃ k, mkMat kernel data h alpha = .ok k ∧
      ∃ f : (Fin d → ℝ) → ℝ, (∀ pts, k.evalPoints (fun _ => 1) 0 pts = .ok (pts.map f)) ∧ (∀ x, 0 ≤ f x) ∧
        ∫ x, f x = 1 := by
  obtain ⟨k', h1, h2, h3, -⟩ := setAlpha_ready _ (ready_mat h hdet kernel data) alpha (named_good kernel hk d n hd hn) hn
  refine ⟨k', by rw [mkMat, invertMat, if_pos hdet]; exact h1, ready_density k' h2 ?_ hd hn⟩
  rw [h3]; exact hk

example : (0 : ℝ) < (!![2, 1; 0, 3] : Matrix (Fin 2) (Fin 2) ℝ).det := by rw [Matrix.det_fin_two_of]; norm_num

/-- C130.  A vector with a wrong number of smoothing parameters and a matrix whose determinant is not positive are
rejected with `ValueError`. -/
theorem C130_rejected (store : ℝ → ℝ) (kernel : Obj) {d n : ℕ} (data : Fin n → Fin d → ℝ) (dflt : Fin d → ℝ) (alpha : ℝ) :
    (∀ h : List ℝ, h.length ≠ 1 → h.length ≠ d → mkVec store kernel data dflt h alpha = .error .valueError) ∧
    ∀ h : Matrix (Fin d) (Fin d) ℝ, h.det ≤ 0 → mkMat kernel data h alpha = .error .valueError := by
  constructor
  · intro h h1 h2
    rw [mkVec, checkHs, if_neg h1, if_neg h2]
  · intro h hdet
    rw [mkMat, invertMat, if_neg (not_lt.mpr hdet)]

/-- C130.  `eval_points` accepts an array with one row for each dimension, or a single row of `d` numbers, which is
one point; everything else is a `ValueError`. -/
theorem C130_shapes (d : ℕ) (rows : List (List ℝ)) :
    (rows.length = d → checkShape d rows = .ok rows) ∧
    (∀ row, rows = [row] → d ≠ 1 → row.length = d → checkShape d rows = .ok (row.map fun v => [v])) ∧
    (rows.length ≠ d → (∀ row, rows = [row] → row.length ≠ d) → checkShape d rows = .error .valueError) := by
  refine ⟨fun h => by unfold checkShape; exact if_pos h, ?_, ?_⟩
  · rintro row rfl h1 h2
    unfold checkShape
    rw [if_neg (by simpa using h1.symm)]
    exact if_pos h2
  · intro h1 h2
    unfold checkShape
    rw [if_neg h1]
    match rows, h2 with
    | [row], h2 => exact if_neg (h2 row rfl)
    | [], _ => rfl
    | _ :: _ :: _, _ => rfl

example : checkShape 2 [[1, 2]] = .ok [[1], [2]] ∧ checkShape 3 [[1, 2]] = .error .valueError := by
  constructor <;> simp [checkShape]

/-- C130, refuted for integers: in a vector of integers the default is truncated when it is filled in, and the
smoothing parameter is zero. -/
theorem C130_integer_refuted : ∃ hs : Fin 2 → ℝ,
    checkHs (fun x => (⌊x⌋ : ℝ)) 2 (fun _ => 1 / 2) [0, 1] = .ok hs ∧ hs 0 = 0 ∧ (invertVec hs).2 = 0 := by
  refine ⟨fun i => if ([0, 1] : List ℝ).getD i 0 ≤ 0 then ((⌊(1 / 2 : ℝ)⌋ : ℤ) : ℝ) else ([0, 1] : List ℝ).getD i 0, ?_, ?_, ?_⟩
  · simp [checkHs]
  · norm_num
  · norm_num [invertVec, Fin.prod_univ_two]

/-! ### C131: both ways of evaluation agree -/

/-- C131.  The loop over the data and the loop over the points give the same numbers, for any weights, moments and
adaptive factors. -/
theorem C131_loops {d n : ℕ} (k : KDE d n) (y : Fin n → ℝ) (r : ℕ) (pts : List (Fin d → ℝ)) :
    k.dataLoop y r pts = k.pointLoop y r pts := by rw [dataLoop_eq, pointLoop_eq]

/-- C131.  The value at a point does not depend on which other points are evaluated in the same call. -/
theorem C131_pointwise {d n : ℕ} (k : KDE d n) (y : Fin n → ℝ) (r : ℕ) (pts : List (Fin d → ℝ)) (L : List ℝ)
    (h : k.evalPoints y r pts = .ok L) :
    L.length = pts.length ∧ ∀ (i : ℕ) p, pts[i]? = some p → ∃ v, k.evalPoints y r [p] = .ok [v] ∧ L[i]? = some v := by
  cases hc : normFactor k.kernel.r d (some n) k.kernel.shape with
  | error e => rw [KDE.evalPoints, KDE.normFactor, hc] at h; cases h
  | ok c =>
    rw [evalPoints_eq k y r pts c hc] at h
    injection h with h
    subst h
    refine ⟨by simp, fun i p hp => ⟨_, evalPoints_eq k y r [p] c hc, ?_⟩⟩
    rw [List.getElem?_map, hp]
    rfl

/-- C131.  Explicit value in one dimension with the smoothing parameter `h`: the sum of the kernels around the data
divided by `n h` and the norm of the kernel. -/
theorem C131_value (kernel : Obj) (hk : kernel ∈ named) {n : ℕ} (hn : n ≠ 0) (data : Fin n → Fin 1 → ℝ) (dflt : Fin 1 → ℝ)
    (h x : ℝ) (hh : 0 < h) :
    ∃ k c, mkVec id kernel data dflt [h] 0 = .ok k ∧ normFactor kernel.r 1 (some n) kernel.shape = .ok c ∧ 0 < c ∧
      k.evalPoints (fun _ => 1) 0 [fun _ => x]
        = .ok [(∑ i, kernelRaw kernel.r (fun _ : Fin 1 => (x - data i 0) / h) kernel.shape) / (h * n * c)] := by
  obtain ⟨⟨c, hc, hcp, -⟩, -⟩ := named_good kernel hk 1 n one_ne_zero hn
  refine ⟨⟨kernel, data, (invertVec fun _ : Fin 1 => h).1, (invertVec fun _ : Fin 1 => h).2, fun _ => 1⟩, c, ?_, hc, hcp, ?_⟩
  · rw [mkVec, checkHs, if_pos (by simp)]
    have : ¬ h ≤ 0 := not_le.mpr hh
    simp [this, KDE.setAlpha]
  · rw [evalPoints_eq _ _ _ _ c hc]
    simp only [List.map_cons, List.map_nil, KDE.sumAt, momentFun, invertVec]
    congr 2
    congr 1
    · refine Finset.sum_congr rfl fun i _ => ?_
      simp only [if_true, one_mul, one_pow, div_one, mul_one, one_smul]
      congr 1
      funext j
      rw [Matrix.mulVec_diagonal, Subsingleton.elim j 0]
      simp only [Pi.sub_apply]
      ring
    · simp

/-! ### C132: adaptive factors -/

/-- C132.  With `alpha > 0` the factors of the adaptive estimate are `(f_i / g)^(-alpha)`, where `f_i` is the estimate
without adaption at datum `i` and `g` the geometric mean of these numbers; the product of the factors is one and a
larger `f_i` gives a smaller factor.  With `alpha ≤ 0` all factors are one. -/
theorem C132_adaptive {d n : ℕ} (k : KDE d n) (hk : k.kernel ∈ named) (hd : d ≠ 0) (hn : n ≠ 0) (hr : Ready k)
    (alpha : ℝ) :
    ∃ k' f, k.setAlpha alpha = .ok k' ∧
      ({ k with lam := fun _ => 1 } : KDE d n).evalPoints (fun _ => 1) 0 (List.ofFn k.data) = .ok (List.ofFn f) ∧
      (alpha ≤ 0 → ∀ i, k'.lam i = 1) ∧
      (0 < alpha → (∃ g, 0 < g ∧ g ^ n = ∏ i, f i ∧ ∀ i, k'.lam i = (f i / g) ^ (-alpha)) ∧ (∏ i, k'.lam i = 1) ∧
        ∀ i j, f i < f j → k'.lam j < k'.lam i) := by
  obtain ⟨⟨c, hc, hcp, -⟩, hz⟩ := named_good k.kernel hk d n hd hn
  have hf := pilot_pos k hr hn c hcp hz
  have hev : ({ k with lam := fun _ => 1 } : KDE d n).evalPoints (fun _ => 1) 0 (List.ofFn k.data)
      = .ok (List.ofFn (k.pilot c)) := by
    have he := evalPoints_eq ({ k with lam := fun _ => 1 } : KDE d n) (fun _ => 1) 0 (List.ofFn k.data) c hc
    simp only at he
    rw [he, List.map_ofFn]
    rfl
  by_cases ha : 0 < alpha
  · refine ⟨_, k.pilot c, setAlpha_eq k alpha c ha hc, hev, fun h => absurd ha (not_lt.mpr h), fun _ => ⟨⟨_, exp_pos _, ?_,
      fun i => rfl⟩, geometric_mean _ hf hn alpha, ?_⟩⟩
    · rw [← exp_nat_mul, mul_div_cancel₀ _ (by exact_mod_cast hn), exp_sum]
      exact Finset.prod_congr rfl fun i _ => exp_log (hf i)
    · intro i j hij
      have hg := exp_pos ((∑ j, log (k.pilot c j)) / n)
      exact rpow_lt_rpow_of_neg (div_pos (hf i) hg) ((div_lt_div_iff_of_pos_right hg).mpr hij) (by linarith)
  · refine ⟨{ k with lam := fun _ => 1 }, k.pilot c, ?_, hev, fun _ _ => rfl, fun h => absurd h ha⟩
    rw [KDE.setAlpha]
    simp only [if_neg ha]

/-! ### C133: transformed densities -/

/-- C133.  With `L2 = 0` (logarithm) the estimate is a density on the positive numbers, and with `L2 = 1` on all
numbers.  (`k` is the estimate for the transformed data.) -/
theorem C133_density {n : ℕ} (hn : n ≠ 0) (k : KDE 1 n) (hk : k.kernel ∈ named) (hr : Ready k) :
    (∃ f : ℝ → ℝ, (∀ pts, 2 ≤ pts.length → tkdeEval id 0 k pts = .ok (pts.map f)) ∧ (∀ x, 0 < x → 0 ≤ f x) ∧
      ∫ x in Ioi 0, f x = 1) ∧
    (∃ f : ℝ → ℝ, (∀ pts, 2 ≤ pts.length → tkdeEval id 1 k pts = .ok (pts.map f)) ∧ (∀ x, 0 ≤ f x) ∧ ∫ x, f x = 1) := by
  obtain ⟨⟨c, hc, hcp, hi⟩, -⟩ := named_good k.kernel hk 1 n one_ne_zero hn
  have hd := dens_integral k hr c hcp hi hn
  have h0 := dens_nonneg k hr c hcp
  refine ⟨⟨_, fun pts h => tkdeEval_eq id 0 k c hc pts h, fun x hx => ?_, ?_⟩,
    ⟨_, fun pts h => tkdeEval_eq id 1 k c hc pts h, fun x => ?_, ?_⟩⟩
  · refine mul_nonneg (h0 _) ?_
    simp only [scaleFactor, if_true, if_neg (zero_ne_one (α := ℝ)), mul_one]
    exact (rpow_pos_of_pos hx _).le
  · rw [← hd, ← integral_log_subst]
    simp [transform, scaleFactor]
  · exact mul_nonneg (h0 _) (by simp [scaleFactor])
  · refine Eq.trans ?_ hd
    simp [transform, scaleFactor]

/-- C133, partial for the other powers: the estimate is not negative and its integral over the positive numbers is
that of the estimate for the transformed data over the positive numbers, so never more than one.  Missing: it is not
one. -/
theorem C133_power_partial {n : ℕ} (hn : n ≠ 0) (k : KDE 1 n) (hk : k.kernel ∈ named) (hr : Ready k) (v : ℝ) (hv : v ≠ 0) :
    ∃ f g : ℝ → ℝ, (∀ pts, 2 ≤ pts.length → tkdeEval id v k pts = .ok (pts.map f)) ∧
      (∀ pts : List ℝ, k.evalPoints (fun _ => 1) 0 (pts.map fun x _ => x) = .ok (pts.map g)) ∧ (∀ x, 0 < x → 0 ≤ f x) ∧
      ∫ x in Ioi 0, f x = ∫ t in Ioi 0, g t ∧ ∫ x in Ioi 0, f x ≤ 1 := by
  obtain ⟨⟨c, hc, hcp, hi⟩, -⟩ := named_good k.kernel hk 1 n one_ne_zero hn
  have hd := dens_integral k hr c hcp hi hn
  have h0 := dens_nonneg k hr c hcp
  have hint : Integrable (k.dens c) := by
    by_contra h
    rw [integral_undef h] at hd
    norm_num at hd
  have hsf : ∀ x : ℝ, 0 < x → scaleFactor v x = x ^ (v - 1) * |v| := by
    intro x hx
    simp only [scaleFactor, if_neg hv]
    by_cases h1 : v = 1
    · simp [h1]
    · rw [if_neg h1, mul_comm v, sign_mul_self]
  have e : ∫ x in Ioi 0, k.dens c (transform id v x) * scaleFactor v x = ∫ t in Ioi (0 : ℝ), k.dens c t := by
    rw [← integral_pow_subst (k.dens c) v hv]
    refine setIntegral_congr_fun measurableSet_Ioi fun x hx => ?_
    simp only [hsf x hx, transform, if_neg hv, id]
  refine ⟨_, k.dens c, fun pts h => tkdeEval_eq id v k c hc pts h, fun pts => ?_, fun x hx => ?_, e, ?_⟩
  · rw [evalPoints_eq k _ _ _ c hc, List.map_map]
    rfl
  · rw [hsf x hx]
    exact mul_nonneg (h0 _) (mul_nonneg (rpow_pos_of_pos hx _).le (abs_nonneg _))
  · rw [e, ← hd]
    exact setIntegral_le_integral hint (Filter.Eventually.of_forall h0)

/-- C133, refuted for the powers: for the Gaussian kernel part of the mass lies at negative transformed values, where
no point is mapped to, and the integral of the estimate is less than one, for every power, data and smoothing
parameter. -/
theorem C133_power_refuted {n : ℕ} (hn : n ≠ 0) (k : KDE 1 n) (hk : k.kernel = gaus) (hr : Ready k) (v : ℝ) (hv : v ≠ 0) :
    ∃ f : ℝ → ℝ, (∀ pts, 2 ≤ pts.length → tkdeEval id v k pts = .ok (pts.map f)) ∧ ∫ x in Ioi 0, f x < 1 := by
  have hkn : k.kernel ∈ named := by rw [hk]; simp [named]
  obtain ⟨f, g, h1, h2, h3, h4, h5⟩ := C133_power_partial hn k hkn hr v hv
  refine ⟨f, h1, ?_⟩
  obtain ⟨⟨c, hc, hcp, hi⟩, -⟩ := named_good k.kernel hkn 1 n one_ne_zero hn
  have hgd : ∀ t, g t = k.dens c t := by
    intro t
    have := h2 [t]
    rw [evalPoints_eq k _ _ _ c hc] at this
    simp only [List.map_cons, List.map_nil, Except.ok.injEq, List.cons.injEq, and_true] at this
    exact this.symm
  have hd := dens_integral k hr c hcp hi hn
  have hpos : ∀ t, 0 < k.dens c t := by
    intro t
    have hn' : (0 : ℝ) < n := by exact_mod_cast Nat.pos_of_ne_zero hn
    refine div_pos ?_ (mul_pos (mul_pos hr.det hn') hcp)
    have : Nonempty (Fin n) := ⟨⟨0, Nat.pos_of_ne_zero hn⟩⟩
    refine Finset.sum_pos (fun i _ => ?_) Finset.univ_nonempty
    have := hr.lam i
    rw [hk]
    simp only [momentFun, if_true, one_mul, kernelRaw, gaus]
    exact mul_pos (exp_pos _) (by positivity)
  have hint : Integrable (k.dens c) := by
    by_contra h
    rw [integral_undef h] at hd
    norm_num at hd
  have hsplit := integral_add_compl (μ := volume) (s := Ioi (0 : ℝ)) measurableSet_Ioi hint
  have hneg : 0 < ∫ t in (Ioi (0 : ℝ))ᶜ, k.dens c t := by
    rw [setIntegral_pos_iff_support_of_nonneg_ae (Filter.Eventually.of_forall fun t => (hpos t).le) hint.integrableOn]
    have : Function.support (k.dens c) = univ := by
      ext t; simp [(hpos t).ne']
    rw [this, univ_inter, compl_Ioi, volume_Iic]
    exact ENNReal.zero_lt_top
  rw [h4]
  simp only [hgd]
  linarith

/-- C133.  On positive numbers the inverse transformation undoes the transformation. -/
theorem C133_inverse (v x : ℝ) (hx : 0 < x) : invTransform v (transform id v x) = x := by
  unfold invTransform transform
  by_cases h : v = 0
  · simp [h, exp_log hx]
  · simp only [if_neg h, id]
    rw [← rpow_mul hx.le, mul_one_div_cancel h, rpow_one]

/-- C133, refuted for integer data: the transformed value is stored in an array of integers. -/
theorem C133_integer_refuted : transform (fun x => (⌊x⌋ : ℝ)) 0 2 = 0 ∧ transform id 0 2 = log 2 ∧ 0 < log 2 := by
  refine ⟨?_, by simp [transform], log_pos (by norm_num)⟩
  simp only [transform, if_true]
  have : ⌊log 2⌋ = 0 := by
    rw [Int.floor_eq_iff]
    constructor
    · simpa using (log_pos (by norm_num : (1 : ℝ) < 2)).le
    · have := log_lt_sub_one_of_pos (by norm_num : (0 : ℝ) < 2) (by norm_num)
      norm_num at this ⊢
      linarith
  rw [this]
  norm_num

/-- C133, refuted for a single point: with a transformation `eval_points` raises `ValueError`, although a point is
documented as an argument. -/
theorem C133_single_refuted {n : ℕ} (hn : n ≠ 0) (store : ℝ → ℝ) (v : ℝ) (k : KDE 1 n) (hk : k.kernel ∈ named) (x : ℝ) :
    tkdeEval store v k [x] = .error .valueError := by
  obtain ⟨⟨c, hc, -⟩, -⟩ := named_good k.kernel hk 1 n one_ne_zero hn
  rw [tkdeEval, evalPoints_eq k _ _ _ c hc]
  simp [scalePdf]

/-- A state that meets the hypotheses. -/
example : Ready (⟨gaus, fun _ _ => 1, (invertVec fun _ : Fin 1 => (1 / 2 : ℝ)).1,
    (invertVec fun _ : Fin 1 => (1 / 2 : ℝ)).2, fun _ => 1⟩ : KDE 1 3) :=
  ready_vec (fun _ => 1 / 2) (fun _ => by norm_num) gaus _

/-! ### C134: kernel regression -/

/-- C134.  With `p = 0` the regression is a weighted mean of the responses, up to the small number `tiny` that is added
to the sum of the weights: the weights are not negative, do not depend on the responses, and their sum is the density
estimate. -/
theorem C134_mean {d n : ℕ} (tiny big : ℝ) (ht : 0 < tiny) (k : KDE d n) (hk : k.kernel ∈ named) (hd : d ≠ 0) (hn : n ≠ 0)
    (hr : Ready k) (x : Fin d → ℝ) :
    ∃ w : Fin n → ℝ, (∀ i, 0 ≤ w i) ∧ k.evalPoints (fun _ => 1) 0 [x] = .ok [∑ i, w i] ∧
      ∀ y : Fin n → ℝ, ∀ M ≤ big, (∀ i, |y i| ≤ M) →
        ∃ v, kregEval tiny big k y 0 x = .ok (some v) ∧ v = (∑ i, w i * y i) / ((∑ i, w i) + tiny) ∧ |v| ≤ M := by
  obtain ⟨⟨c, hc, hcp, -⟩, -⟩ := named_good k.kernel hk d n hd hn
  have hn' : (0 : ℝ) < n := by exact_mod_cast Nat.pos_of_ne_zero hn
  have hD : 0 < k.deth * n * c := mul_pos (mul_pos hr.det hn') hcp
  have hw : ∀ i, 0 ≤ k.weight x i / (k.deth * n * c) := fun i => div_nonneg (weight_nonneg k hr x i) hD.le
  have hs : k.sumAt (fun _ => 1) 0 x / (k.deth * n * c) = ∑ i, k.weight x i / (k.deth * n * c) := by
    rw [sumAt_weight, Finset.sum_div]
    simp [momentFun]
  refine ⟨fun i => k.weight x i / (k.deth * n * c), hw, ?_, ?_⟩
  · rw [evalPoints_eq k _ _ _ c hc, ← hs]
    rfl
  · intro y M hM hy
    have hy' : k.sumAt y 0 x / (k.deth * n * c) = ∑ i, k.weight x i / (k.deth * n * c) * y i := by
      rw [sumAt_weight, Finset.sum_div]
      refine Finset.sum_congr rfl fun i _ => ?_
      simp only [momentFun, if_true]
      ring
    have hW : 0 ≤ ∑ i, k.weight x i / (k.deth * n * c) := Finset.sum_nonneg fun i _ => hw i
    have hM0 : 0 ≤ M := (abs_nonneg _).trans (hy ⟨0, Nat.pos_of_ne_zero hn⟩)
    have hb : |(∑ i, k.weight x i / (k.deth * n * c) * y i) / ((∑ i, k.weight x i / (k.deth * n * c)) + tiny)| ≤ M := by
      rw [abs_div, abs_of_pos (by linarith : 0 < (∑ i, k.weight x i / (k.deth * n * c)) + tiny), div_le_iff₀ (by linarith)]
      calc |∑ i, k.weight x i / (k.deth * n * c) * y i| ≤ ∑ i, |k.weight x i / (k.deth * n * c) * y i| :=
            Finset.abs_sum_le_sum_abs _ _
        _ ≤ ∑ i, k.weight x i / (k.deth * n * c) * M := Finset.sum_le_sum fun i _ => by
            rw [abs_mul, abs_of_nonneg (hw i)]
            exact mul_le_mul_of_nonneg_left (hy i) (hw i)
        _ = M * ∑ i, k.weight x i / (k.deth * n * c) := by rw [← Finset.sum_mul, mul_comm]
        _ ≤ M * ((∑ i, k.weight x i / (k.deth * n * c)) + tiny) :=
            mul_le_mul_of_nonneg_left (by linarith) hM0
    refine ⟨_, ?_, rfl, hb⟩
    rw [kregEval_eq tiny big k y 0 x c hc]
    simp only [if_true]
    rw [hs, hy', clipTo_of_le _ _ (hb.trans hM)]

/-- C134.  In one dimension with `p = 1` the regression reproduces a straight line wherever it is defined. -/
theorem C134_line {n : ℕ} (tiny big : ℝ) (k : KDE 1 n) (hk : k.kernel ∈ named) (hn : n ≠ 0) (a b x : ℝ)
    (hb : |a + b * x| ≤ big) :
    kregEval tiny big k (fun i => a + b * k.data i 0) 1 (fun _ => x) = .ok none ∨
    kregEval tiny big k (fun i => a + b * k.data i 0) 1 (fun _ => x) = .ok (some (a + b * x)) := by
  obtain ⟨⟨c, hc, -⟩, -⟩ := named_good k.kernel hk 1 n one_ne_zero hn
  rw [kregEval_eq tiny big k _ 1 _ c hc]
  simp only [one_ne_zero, if_false, if_true]
  split
  · exact Or.inl rfl
  · rename_i hne
    right
    set w := k.weight fun _ => x
    set u : Fin n → ℝ := fun i => x - k.data i 0 with hu
    have hm : ∀ r i, momentFun r ((fun _ : Fin 1 => x) - k.data i) = if r = 0 then 1 else u i ^ r := by
      intro r i
      simp [momentFun, hu]
    have hy : ∀ i, a + b * k.data i 0 = (a + b * x) + (-b) * u i := by intro i; simp only [hu]; ring
    simp only [sumAt_weight, hm, one_mul] at hne ⊢
    simp only [two_ne_zero, one_ne_zero, if_false, if_true, one_mul, pow_one] at hne ⊢
    simp only [hy]
    rw [local_linear w u (a + b * x) (-b) _ hne, clipTo_of_le _ _ hb]

/-- C134.  With the Gaussian kernel and two different data it is defined everywhere. -/
theorem C134_line_gauss {n : ℕ} (tiny big : ℝ) (k : KDE 1 n) (hk : k.kernel = gaus) (hr : Ready k) (i j : Fin n)
    (hij : k.data i 0 ≠ k.data j 0) (a b x : ℝ) (hb : |a + b * x| ≤ big) :
    kregEval tiny big k (fun i => a + b * k.data i 0) 1 (fun _ => x) = .ok (some (a + b * x)) := by
  have hkn : k.kernel ∈ named := by rw [hk]; simp [named]
  have hn : n ≠ 0 := by rintro rfl; exact i.elim0
  rcases C134_line tiny big k hkn hn a b x hb with h | h
  · exfalso
    obtain ⟨⟨c, hc, hcp, -⟩, -⟩ := named_good k.kernel hkn 1 n one_ne_zero hn
    rw [kregEval_eq tiny big k _ 1 _ c hc] at h
    simp only [one_ne_zero, if_false, if_true] at h
    split at h
    · rename_i h0
      have hw : ∀ l, 0 < k.weight (fun _ => x) l := by
        intro l
        have := hr.lam l
        rw [KDE.weight, hk]
        exact div_pos (exp_pos _) (by positivity)
      have hn' : (0 : ℝ) < n := by exact_mod_cast Nat.pos_of_ne_zero hn
      have hD : k.deth * n * c ≠ 0 := (mul_pos (mul_pos hr.det hn') hcp).ne'
      have hp := moment_det_pos (k.weight fun _ => x) (fun l => x - k.data l 0) (fun l => (hw l).le) i j (hw i) (hw j)
        (by intro h; exact hij (by linarith))
      have hm : ∀ r l, momentFun r ((fun _ : Fin 1 => x) - k.data l) = if r = 0 then 1 else (x - k.data l 0) ^ r := by
        intro r l
        simp [momentFun]
      simp only [sumAt_weight, hm, one_mul] at h0
      simp only [two_ne_zero, one_ne_zero, if_false, if_true, one_mul, pow_one] at h0
      rw [div_mul_div_comm, div_pow, ← sq (k.deth * n * c), ← sub_div, div_eq_zero_iff] at h0
      rcases h0 with h0 | h0
      · linarith
      · exact hD (by simpa using h0)
    · cases h
  · exact h

/-- C134, refuted in two dimensions: the moments are summed over the dimensions, so a plane is not reproduced.  With
data `(0,0), (1/2,0), (0,1/4)` and responses `y = x_1` the value at the origin is `-1/12`. -/
theorem C134_plane_refuted (tiny big : ℝ) (hb : 1 ≤ big) :
    let data : Fin 3 → Fin 2 → ℝ := ![![0, 0], ![1 / 2, 0], ![0, 1 / 4]]
    ∃ k, mkVec id rect data (fun _ => 1) [1] 0 = .ok k ∧
      kregEval tiny big k (fun i => data i 0) 1 (fun _ => 0) = .ok (some (-1 / 12)) := by
  intro data
  refine ⟨⟨rect, data, (invertVec fun _ : Fin 2 => 1).1, (invertVec fun _ : Fin 2 => 1).2, fun _ => 1⟩, ?_, ?_⟩
  · rw [mkVec, checkHs, if_pos (by simp)]
    simp [KDE.setAlpha]
  · have hc : normFactor rect.r 2 (some 3) rect.shape = .ok 4 := by
      simp only [normFactor, rect]; norm_num
    rw [kregEval_eq tiny big _ _ 1 _ 4 hc]
    have hw : ∀ i : Fin 3, kernelRaw rect.r (((1 / (1 : ℝ)) • (invertVec fun _ : Fin 2 => (1 : ℝ)).1).mulVec
        ((fun _ => (0 : ℝ)) - data i)) rect.shape = 1 := by
      intro i
      refine if_pos fun j => ?_
      simp only [rect, invertVec, div_one, one_smul, Matrix.mulVec_diagonal, one_mul, Pi.sub_apply, zero_sub, abs_neg]
      fin_cases i <;> fin_cases j <;> norm_num [data]
    have hsum : ∀ (y : Fin 3 → ℝ) (r : ℕ), KDE.sumAt (⟨rect, data, (invertVec fun _ : Fin 2 => 1).1, (invertVec fun _ : Fin 2 => 1).2,
        fun _ => 1⟩ : KDE 2 3) y r (fun _ => 0) = ∑ i, momentFun r ((fun _ => (0 : ℝ)) - data i) * y i := by
      intro y r
      rw [KDE.sumAt]
      refine Finset.sum_congr rfl fun i _ => ?_
      simp only
      rw [hw i]
      simp
    have hval : clipTo big (-1 / 12 : ℝ) = -1 / 12 := clipTo_of_le _ _ (by rw [abs_le]; constructor <;> norm_num <;> linarith)
    have hdet : (invertVec fun _ : Fin 2 => (1 : ℝ)).2 = 1 := by simp [invertVec]
    simp only [one_ne_zero, if_false, if_true, hsum]
    simp only [hdet]
    have d00 : data 0 0 = 0 := rfl
    have d01 : data 0 1 = 0 := rfl
    have d10 : data 1 0 = 1 / 2 := rfl
    have d11 : data 1 1 = 0 := rfl
    have d20 : data 2 0 = 0 := rfl
    have d21 : data 2 1 = 1 / 4 := rfl
    rw [if_neg]
    · rw [← hval]
      congr 3
      norm_num [Fin.sum_univ_three, momentFun, Fin.sum_univ_two, d00, d01, d10, d11, d20, d21]
    · norm_num [Fin.sum_univ_three, momentFun, Fin.sum_univ_two, d00, d01, d10, d11, d20, d21]

/-- C134, refuted for negative responses: the fast evaluation, which is the default, sets negative sums to zero, so
the regression is never negative. -/
theorem C134_negative_refuted (tiny big : ℝ) (ht : 0 < tiny) (hb : 0 ≤ big) (kern : ℝ → ℝ) (normFact invh a dx : ℝ)
    (inc : ℕ) (data y : List ℝ) (L : List ℝ) (h : kregFast tiny big kern normFact invh a dx inc data y = .ok L) :
    ∀ v ∈ L, 0 ≤ v := by
  have hnn : ∀ c : List ℝ, ∀ z ∈ gridFast kern normFact invh dx data.length inc c, 0 ≤ z := by
    intro c z hz
    simp only [gridFast, List.mem_map] at hz
    obtain ⟨w, -, rfl⟩ := hz
    split
    · rename_i h0; rw [mul_one]; exact h0.le
    · simp
  rw [kregFast] at h
  split at h
  · injection h with h
    subst h
    intro v hv
    obtain ⟨i, hi, rfl⟩ := List.mem_iff_getElem.mp hv
    rw [List.getElem_zipWith]
    refine clipTo_nonneg _ _ hb (div_nonneg (hnn _ _ (List.getElem_mem _)) (add_nonneg (hnn _ _ (List.getElem_mem _)) ht.le))
  · cases h
  · cases h

/-- C134, refuted with a transformation: the fast evaluation does not pass the responses on, and the regression is the
same for all responses, with values from 0 to 1. -/
theorem C134_transform_refuted (tiny big : ℝ) (ht : 0 < tiny) (hb : 1 ≤ big)
    (fast : Option (List ℝ) → ℕ → List ℝ) (post : List ℝ → List ℝ) (hp : ∀ l, ∀ v ∈ post l, 0 ≤ v) (y y' : List ℝ) :
    kregGrid tiny big true fast post y = kregGrid tiny big true fast post y' ∧
    ∀ v ∈ kregGrid tiny big true fast post y, 0 ≤ v ∧ v < 1 := by
  refine ⟨rfl, fun v hv => ?_⟩
  simp only [kregGrid, tkdeGridFast, if_true] at hv
  obtain ⟨i, hi, rfl⟩ := List.mem_iff_getElem.mp hv
  rw [List.getElem_zipWith]
  have h0 : 0 ≤ (post (fast none 0))[i]'(by simp at hi; exact hi) := hp _ _ (List.getElem_mem _)
  generalize (post (fast none 0))[i]'(by simp at hi; exact hi) = z at h0
  have h1 : 0 ≤ z / (z + tiny) := div_nonneg h0 (by linarith)
  have h2 : z / (z + tiny) < 1 := (div_lt_one (by linarith)).mpr (by linarith)
  rw [clipTo_of_le _ _ (by rw [abs_of_nonneg h1]; linarith)]
  exact ⟨h1, h2⟩

/-! ### C135: intervals for a probability -/

/-- C135.  The Wilson interval is the set of the probabilities `q` that the score test does not reject:
`n (p - q)² ≤ z² q (1 - q)`. -/
theorem C135_wilson (z0 n p : ℝ) (hz : z0 ≠ 0) (hn : 0 ≤ n) (h0 : 0 ≤ p) (h1 : p ≤ 1) (q : ℝ) :
    (wilson z0 n p).1 ≤ q ∧ q ≤ (wilson z0 n p).2 ↔ n * (p - q) ^ 2 ≤ z0 ^ 2 * (q * (1 - q)) :=
  wilson_mem z0 n p hz hn h0 h1 q

/-- C135.  The Wilson interval contains the estimate and lies between 0 and 1; without data it is everything from 0
to 1. -/
theorem C135_wilson_bounds (z0 n p : ℝ) (hz : z0 ≠ 0) (hn : 0 ≤ n) (h0 : 0 ≤ p) (h1 : p ≤ 1) :
    0 ≤ (wilson z0 n p).1 ∧ (wilson z0 n p).1 ≤ p ∧ p ≤ (wilson z0 n p).2 ∧ (wilson z0 n p).2 ≤ 1 ∧
      (n = 0 → wilson z0 n p = (0, 1)) := by
  have hz2 : 0 < z0 ^ 2 := by positivity
  have hp := (wilson_mem z0 n p hz hn h0 h1 p).mpr (by
    have := mul_nonneg hz2.le (mul_nonneg h0 (sub_nonneg.mpr h1))
    simpa using this)
  have hend : ∀ q, n * (p - q) ^ 2 ≤ z0 ^ 2 * (q * (1 - q)) → 0 ≤ q ∧ q ≤ 1 := by
    intro q hq
    have h2 : 0 ≤ z0 ^ 2 * (q * (1 - q)) := (mul_nonneg hn (sq_nonneg _)).trans hq
    have h3 : 0 ≤ q * (1 - q) := by
      by_contra h
      push Not at h
      nlinarith
    constructor
    · by_contra h; push Not at h; nlinarith
    · by_contra h; push Not at h; nlinarith
  have hle := hp.1.trans hp.2
  have e1 := hend _ ((wilson_mem z0 n p hz hn h0 h1 _).mp ⟨le_refl _, hle⟩)
  have e2 := hend _ ((wilson_mem z0 n p hz hn h0 h1 _).mp ⟨hle, le_refl _⟩)
  refine ⟨e1.1, hp.1, hp.2, e2.2, ?_⟩
  rintro rfl
  have hs : √(0.25 : ℝ) = 1 / 2 := by
    rw [show (0.25 : ℝ) = (1 / 2) ^ 2 by norm_num]
    exact sqrt_sq (by norm_num)
  simp only [wilson, zero_div, zero_mul, zero_add, mul_zero, add_zero, div_one, hs, Prod.mk.injEq]
  norm_num

/-- C135.  The credible interval starts at 0 when no success was seen and ends at 1 when all were successes. -/
theorem C135_credible (isf : ℝ → ℝ → ℝ → ℝ) (a b n alpha : ℝ) :
    (credible isf a b n 0 alpha).1 = 0 ∧ (credible isf a b n 1 alpha).2 = 1 ∧
    ∀ p, p ≠ 0 → p ≠ 1 → credible isf a b n p alpha
      = (isf (1 - alpha / 2) (n * p + a) (n * (1 - p) + b), isf (alpha / 2) (n * p + a) (n * (1 - p) + b)) := by
  refine ⟨by simp [credible], by simp [credible], fun p h0 h1 => by simp [credible, h0, h1]⟩

/-! ### C136: search for the smoothing parameter -/

/-- C136.  `prb_search_best` returns the scores of all candidates and a smoothing parameter whose score is not larger
than any of them; among candidates with the same score the last one wins. -/
theorem C136_best {α : Type*} [Field α] [LinearOrder α] [IsStrictOrderedRing α] (score : α → α) (hsvec : List α)
    (hne : hsvec ≠ []) :
    ∃ hb sb, searchBest score hsvec = .ok (hsvec.map score, hb, sb) ∧ sb = score hb ∧ (∀ h ∈ hsvec, sb ≤ score h) ∧
      ((hb = hsvec.getLast hne + 1 / 10 ∧ ∀ h ∈ hsvec, sb < score h) ∨
        ∃ s t, hsvec = s ++ hb :: t ∧ ∀ h ∈ t, sb < score h) := by
  have hl := List.getLast?_eq_getLast_of_ne_nil hne
  have h := searchBest_fold score hsvec (hsvec.getLast hne + 1 / 10, score (hsvec.getLast hne + 1 / 10)) rfl
  refine ⟨_, _, by simp only [searchBest, hl], h.1, h.2.2.1, ?_⟩
  rcases h.2.2.2 with ⟨h5, h6⟩ | h5
  · left
    rw [h5] at h6 ⊢
    exact ⟨rfl, h6⟩
  · exact Or.inr h5

/-- C136, refuted: the search starts from a smoothing parameter outside the vector, 0.1 above the last, and returns it
when it is better than all candidates. -/
theorem C136_outside_refuted : searchBest (fun h : ℚ => 2 - h) [1 / 2, 1] = .ok ([3 / 2, 1], 11 / 10, 9 / 10) := by
  simp only [searchBest, List.getLast?, List.getLast, List.foldl, List.map]
  norm_num

/-! ### C137: evaluation on a grid -/

/-- The norm used on a grid: the exact one unless the sum of the kernel over the grid differs by more than 5 %. -/
noncomputable def gridNormSpec (kern : ℝ → ℝ) (normFact invh dx : ℝ) (n inc : ℕ) : ℝ :=
  let S := (∑ j ∈ Finset.range (2 * inc), kern (invh * (((j : ℝ) - inc) * dx))) * dx * n
  open Classical in if |S - normFact| > 5 / 100 * normFact then S else normFact

theorem gridNorm_spec (kern : ℝ → ℝ) (normFact invh dx : ℝ) (n inc : ℕ) :
    gridNorm kern normFact invh dx n inc = gridNormSpec kern normFact invh dx n inc := by
  have hS : (rawW kern invh dx inc).sum = ∑ j ∈ Finset.range (2 * inc), kern (invh * (((j : ℝ) - inc) * dx)) := by
    rw [← list_range_sum, rawW, List.map_map]
    rfl
  unfold gridNorm gridNormSpec
  rw [hS, show (0.05 : ℝ) = 5 / 100 by norm_num]

theorem gridNorm_pos (kern : ℝ → ℝ) (hk : ∀ u, 0 ≤ kern u) (h0 : 0 < kern 0) (normFact invh dx : ℝ) (hN : 0 < normFact)
    (hdx : 0 < dx) (n inc : ℕ) (hn : n ≠ 0) (hinc : inc ≠ 0) : 0 < gridNorm kern normFact invh dx n inc := by
  have hn' : (0 : ℝ) < n := by exact_mod_cast Nat.pos_of_ne_zero hn
  rw [gridNorm_spec, gridNormSpec]
  split
  · refine mul_pos (mul_pos ?_ hdx) hn'
    refine Finset.sum_pos' (fun j _ => hk _) ⟨inc, Finset.mem_range.mpr (by omega), ?_⟩
    simpa using h0
  · exact hN

/-- C137.  On an equidistant grid that covers the data, `eval_grid_fast` (one dimension) gives at grid point `i` the
sum over the data of the linear interpolation of the kernel between the two neighbouring grid points, divided by the
norm. -/
theorem C137_binned (kern : ℝ → ℝ) (hk : ∀ u, 0 ≤ kern u) (h0 : 0 < kern 0) (normFact invh a dx : ℝ) (hN : 0 < normFact)
    (hdx : 0 < dx) (inc : ℕ) (hinc : 2 ≤ inc) (data : List ℝ) (hne : data ≠ [])
    (hin : ∀ d ∈ data, a ≤ d ∧ d < a + ((inc - 1 : ℕ) : ℝ) * dx) :
    ∃ c, Grid.gridcount1 data ((List.range inc).map fun j : ℕ => a + (j : ℝ) * dx) [1] = .ok c ∧
      (gridFast kern normFact invh dx data.length inc c).length = inc ∧
      ∀ i < inc, (gridFast kern normFact invh dx data.length inc c)[i]?
        = some ((data.map fun d => (1 - Int.fract ((d - a) / dx)) * kern (invh * (((i : ℝ) - ⌊(d - a) / dx⌋) * dx))
            + Int.fract ((d - a) / dx) * kern (invh * (((i : ℝ) - (⌊(d - a) / dx⌋ + 1)) * dx))).sum
          / gridNormSpec kern normFact invh dx data.length inc) := by
  obtain ⟨c, hc, hl, hf⟩ := gridcount_functional a dx hdx inc hinc data [1] (List.replicate data.length 1) hne hin rfl
  have hlen : data.length ≠ 0 := by simpa using hne
  have hzip : data.zip (List.replicate data.length (1 : ℝ)) = data.map fun d => (d, 1) := by
    apply List.ext_getElem
    · simp
    · intro i _ _; simp
  have hnn := gridcount_nonneg c inc hl a dx _ (by
    intro p hp
    rw [hzip] at hp
    obtain ⟨d, -, rfl⟩ := List.mem_map.mp hp
    exact zero_le_one) hf
  refine ⟨c, hc, gridFast_length _ _ _ _ _ _ _, fun i hi => ?_⟩
  rw [gridFast_nonneg_get kern hk normFact invh dx data.length inc c hl hnn
    (gridNorm_pos kern hk h0 normFact invh dx hN hdx _ _ hlen (by omega)) i hi,
    hf fun j => kern (invh * (((i : ℝ) - j) * dx)), hzip, List.map_map, gridNorm_spec]
  congr 3
  refine List.map_congr_left fun d hd => ?_
  have hfl : (0 : ℤ) ≤ ⌊(d - a) / dx⌋ := Int.floor_nonneg.mpr (div_nonneg (by linarith [(hin d hd).1]) hdx.le)
  have hcast : ((⌊(d - a) / dx⌋.toNat : ℕ) : ℝ) = (⌊(d - a) / dx⌋ : ℝ) := by
    have := Int.toNat_of_nonneg hfl
    exact_mod_cast this
  simp only [Function.comp, one_mul]
  push_cast
  rw [hcast]

/-- C137.  For data on the grid nothing is lost by the binning: the value at a grid point is the sum of the kernels
around the data divided by the norm. -/
theorem C137_on_grid (kern : ℝ → ℝ) (hk : ∀ u, 0 ≤ kern u) (h0 : 0 < kern 0) (normFact invh a dx : ℝ) (hN : 0 < normFact)
    (hdx : 0 < dx) (inc : ℕ) (hinc : 2 ≤ inc) (idx : List ℕ) (hne : idx ≠ []) (hidx : ∀ m ∈ idx, m + 1 < inc) :
    ∃ c, Grid.gridcount1 (idx.map fun m : ℕ => a + (m : ℝ) * dx) ((List.range inc).map fun j : ℕ => a + (j : ℝ) * dx) [1]
        = .ok c ∧
      ∀ i < inc, (gridFast kern normFact invh dx idx.length inc c)[i]?
        = some ((idx.map fun m : ℕ => kern (invh * ((a + (i : ℝ) * dx) - (a + (m : ℝ) * dx)))).sum
          / gridNormSpec kern normFact invh dx idx.length inc) := by
  obtain ⟨c, hc, hl, hnn, hf⟩ := gridcount_on_grid a dx hdx inc hinc idx [1] (List.replicate idx.length 1) hne hidx rfl
  have hlen : idx.length ≠ 0 := by simpa using hne
  refine ⟨c, hc, fun i hi => ?_⟩
  rw [gridFast_nonneg_get kern hk normFact invh dx idx.length inc c hl (hnn (by
      intro v hv
      rw [List.eq_of_mem_replicate hv]; exact zero_le_one))
    (gridNorm_pos kern hk h0 normFact invh dx hN hdx _ _ hlen (by omega)) i hi,
    hf fun j => kern (invh * (((i : ℝ) - j) * dx)), gridNorm_spec]
  congr 3
  apply List.ext_getElem
  · simp
  · intro j _ _
    simp only [List.getElem_zipWith, List.getElem_replicate, one_mul, List.getElem_map]
    congr 2
    ring

/-- C137.  The estimate of a functional in `hste`, `hstt`, `hscv`, `hldpi` (`_estimate_psi`) for data on the grid is
the double sum over the data of the derivative of the kernel. -/
theorem C137_psi (kd : ℝ → ℝ) (heven : ∀ u, kd (-u) = kd u) (order : ℕ) (a dx : ℝ) (hdx : 0 < dx) (inc : ℕ) (hinc : 2 ≤ inc)
    (idx : List ℕ) (hne : idx ≠ []) (hidx : ∀ m ∈ idx, m + 1 < inc) (g : ℝ) :
    ∃ c, Grid.gridcount1 (idx.map fun m : ℕ => a + (m : ℝ) * dx) ((List.range inc).map fun j : ℕ => a + (j : ℝ) * dx) [1]
        = .ok c ∧
      estimatePsi kd order c ((List.range inc).map fun j : ℕ => (j : ℝ) * dx) g idx.length
        = (idx.map fun l : ℕ => (idx.map fun m : ℕ =>
            kd (((a + (l : ℝ) * dx) - (a + (m : ℝ) * dx)) / g)).sum).sum / ((idx.length : ℝ) ^ 2 * g ^ (order + 1)) := by
  obtain ⟨c, hc, hl, -, hf⟩ := gridcount_on_grid a dx hdx inc hinc idx [1] (List.replicate idx.length 1) hne hidx rfl
  have hf' : ∀ φ : ℕ → ℝ, ∑ j ∈ Finset.range inc, c.getD j 0 * φ j = (idx.map φ).sum := by
    intro φ
    rw [hf φ]
    congr 1
    apply List.ext_getElem
    · simp
    · intro j _ _
      simp
  refine ⟨c, hc, ?_⟩
  rw [estimatePsi_eq kd order c inc dx g _ hl]
  congr 1
  have e : ∀ i ∈ Finset.range inc, (∑ j ∈ Finset.range inc, c.getD i 0 * c.getD j 0 *
      kd (((Int.natAbs ((i : ℤ) - j) : ℕ) : ℝ) * dx / g))
      = c.getD i 0 * (idx.map fun m : ℕ => kd (((a + (i : ℝ) * dx) - (a + (m : ℝ) * dx)) / g)).sum := by
    intro i _
    rw [← hf', Finset.mul_sum]
    refine Finset.sum_congr rfl fun j _ => ?_
    rw [mul_assoc]
    congr 2
    rw [Nat.cast_natAbs]
    push_cast
    rcases abs_choice ((i : ℝ) - j) with h | h <;> rw [h]
    · congr 1; ring
    · rw [← heven]; congr 1; ring
  rw [Finset.sum_congr rfl e, hf']

/-! ### C138: constants in `hscv` -/

/-- C138, refuted for one of the two constants: for the standard normal density the functional of order 8 is the
number in the code, that of order 12 is twelve times the number in the code. -/
theorem C138_constants_refuted : hscvPsi8 = psi 8 1 ∧ psi 12 1 = 12 * hscvPsi12 ∧ hscvPsi12 ≠ psi 12 1 := by
  have hpi : 0 < √π := sqrt_pos.mpr pi_pos
  have h12 : psi 12 1 = 12 * hscvPsi12 := by
    norm_num [psi, hscvPsi12, Finset.prod_Ico_succ_top]
    field_simp
    norm_num
  refine ⟨?_, h12, ?_⟩
  · norm_num [psi, hscvPsi8, Finset.prod_Ico_succ_top]
    field_simp
    norm_num
  · rw [h12]
    have : 0 < hscvPsi12 := by unfold hscvPsi12; positivity
    intro h
    linarith

/-! ### C139: empirical probabilities -/

/-- C139.  The default grid reaches one smoothing parameter beyond the data on both sides, and the distance of its
points is between one half of the smoothing parameter and the whole. -/
theorem C139_grid (hs xmin xmax : ℝ) (hh : 0 < hs) (hx : xmin ≤ xmax) :
    let g := getGrid hs xmin xmax
    g.1 = xmin - hs ∧ g.2.1 = xmax + hs ∧ 5 ≤ g.2.2 ∧
      hs / 2 ≤ (g.2.1 - g.1) / ((g.2.2 : ℝ) - 1) ∧ (g.2.1 - g.1) / ((g.2.2 : ℝ) - 1) ≤ hs := by
  intro g
  have hq : 0 ≤ (xmax - xmin) / hs := div_nonneg (by linarith) hh.le
  have hR : xmax - xmin = (xmax - xmin) / hs * hs := by field_simp
  have hf1 := Nat.floor_le hq
  have hf2 := Nat.lt_floor_add_one ((xmax - xmin) / hs)
  refine ⟨rfl, rfl, le_max_right _ _, ?_⟩
  simp only [g, getGrid]
  set q := (xmax - xmin) / hs
  have hd : xmax + hs - (xmin - hs) = (q + 2) * hs := by rw [add_mul, ← hR]; ring
  rw [hd]
  rcases Nat.eq_zero_or_pos ⌊q⌋₊ with h0 | h0
  · rw [h0] at hf2 ⊢
    norm_num at hf2 ⊢
    constructor
    · rw [le_div_iff₀ (by norm_num)]; nlinarith
    · rw [div_le_iff₀ (by norm_num)]; nlinarith
  · rw [max_eq_left (by omega)]
    push_cast
    have h1 : (1 : ℝ) ≤ (⌊q⌋₊ : ℝ) := by exact_mod_cast h0
    have hpos : (0 : ℝ) < 2 * (⌊q⌋₊ : ℝ) + 3 - 1 := by linarith
    constructor
    · rw [le_div_iff₀ hpos]; nlinarith
    · rw [div_le_iff₀ hpos]; nlinarith

/-- C139.  The empirical probabilities are between 0 and 1, one for each point of the grid. -/
theorem C139_probability (tiny a h : ℝ) (ht : 0 < tiny) (hh : 0 < h) (inc : ℕ) (hinc : 2 ≤ inc) (x y : List ℝ) (hne : x ≠ [])
    (hl : x.length = y.length) (hin : ∀ d ∈ x, a ≤ d ∧ d < a + ((inc - 1 : ℕ) : ℝ) * h) :
    ∃ L, prbEmpirical tiny x y ((List.range inc).map fun j : ℕ => a + (j : ℝ) * h) = .ok L ∧ L.length = inc ∧
      ∀ v ∈ L, 0 ≤ v ∧ v ≤ 1 := by
  classical
  obtain ⟨c, hc, hlc, hf⟩ := gridcount_functional a h hh inc hinc x [1] (List.replicate x.length 1) hne hin rfl
  have hzip : ∀ l : List ℝ, l.zip (List.replicate l.length (1 : ℝ)) = l.map fun d => (d, 1) := by
    intro l
    apply List.ext_getElem
    · simp
    · intro i _ _; simp
  have hone : ∀ l : List ℝ, ∀ p ∈ l.zip (List.replicate l.length (1 : ℝ)), 0 ≤ p.2 := by
    intro l p hp
    rw [hzip] at hp
    obtain ⟨d, -, rfl⟩ := List.mem_map.mp hp
    exact zero_le_one
  have hcn := gridcount_nonneg c inc hlc a h _ (hone x) hf
  -- the counts of the successes are between zero and the counts
  have key : ∃ c0, (if ∃ v ∈ y, v = 1 then Grid.gridcount1 (((x.zip y).filter fun p => p.2 = 1).map Prod.fst)
      ((List.range inc).map fun j : ℕ => a + (j : ℝ) * h) [1]
      else .ok (((List.range inc).map fun j : ℕ => a + (j : ℝ) * h).map fun _ => 0)) = .ok c0 ∧ c0.length = inc ∧
      ∀ i (h0 : i < c0.length) (h1 : i < c.length), 0 ≤ c0[i] ∧ c0[i] ≤ c[i] := by
    by_cases hy : ∃ v ∈ y, v = 1
    · simp only [if_pos hy]
      set s := ((x.zip y).filter fun p => p.2 = 1).map Prod.fst with hs
      have hsub : s.Sublist x := by
        have h1 : ((x.zip y).filter fun p => p.2 = 1).Sublist (x.zip y) := List.filter_sublist
        have h2 := h1.map Prod.fst
        rwa [List.map_fst_zip (by omega)] at h2
      have hsn : s ≠ [] := by
        obtain ⟨v, hv, rfl⟩ := hy
        obtain ⟨i, hi, hvi⟩ := List.mem_iff_getElem.mp hv
        have : x[i]'(by omega) ∈ s := by
          rw [hs, List.mem_map]
          refine ⟨(x[i]'(by omega), y[i]), ?_, rfl⟩
          rw [List.mem_filter]
          refine ⟨?_, by simp [hvi]⟩
          rw [← List.getElem_zip (h := by simp; omega)]
          exact List.getElem_mem _
        exact List.ne_nil_of_mem this
      obtain ⟨c0, hc0, hl0, hf0⟩ := gridcount_functional a h hh inc hinc s [1] (List.replicate s.length 1) hsn
        (fun d hd => hin d (hsub.subset hd)) rfl
      refine ⟨c0, hc0, hl0, fun i h0 h1 => ⟨gridcount_nonneg c0 inc hl0 a h _ (hone s) hf0 _ (List.getElem_mem _), ?_⟩⟩
      have e1 := hf fun j => if j = i then 1 else 0
      have e0 := hf0 fun j => if j = i then 1 else 0
      simp only [mul_ite, mul_one, mul_zero] at e1 e0
      rw [Finset.sum_ite_eq' (Finset.range inc) i, if_pos (Finset.mem_range.mpr (by omega)), List.getD_eq_getElem _ _ h1,
        hzip, List.map_map] at e1
      rw [Finset.sum_ite_eq' (Finset.range inc) i, if_pos (Finset.mem_range.mpr (by omega)), List.getD_eq_getElem _ _ h0,
        hzip, List.map_map] at e0
      rw [e0, e1]
      refine (hsub.map _).sum_le_sum fun w hw => ?_
      obtain ⟨d, -, rfl⟩ := List.mem_map.mp hw
      have f1 := Int.fract_nonneg ((d - a) / h)
      have f2 := (Int.fract_lt_one ((d - a) / h)).le
      simp only [Function.comp]
      split <;> split <;> linarith
    · simp only [if_neg hy]
      refine ⟨_, rfl, by simp, fun i h0 h1 => ?_⟩
      simp only [List.getElem_map, le_refl, true_and]
      exact hcn _ (List.getElem_mem _)
  obtain ⟨c0, hc0, hl0, hle⟩ := key
  have hc' : Grid.gridcount1 x ((List.range inc).map fun j : ℕ => a + (j : ℝ) * h) [1] = .ok c := hc
  refine ⟨_, by rw [prbEmpirical, hc', hc0], by simp [hl0, hlc], ?_⟩
  intro v hv
  obtain ⟨i, hi, rfl⟩ := List.mem_iff_getElem.mp hv
  have hi' : i < inc := by simp [hl0, hlc] at hi; exact hi
  rw [List.getElem_zipWith]
  obtain ⟨h1, h2⟩ := hle i (by omega) (by omega)
  split
  · exact ⟨le_refl _, zero_le_one⟩
  · have hp : 0 < c[i] + tiny := by linarith
    exact ⟨div_nonneg h1 hp.le, (div_le_one hp).mpr (by linarith)⟩

/-- Five data on a grid of eleven points. -/
example : ∀ d ∈ ([1, 2, 2.5, 7, 9.9] : List ℝ), (0 : ℝ) ≤ d ∧ d < 0 + ((11 - 1 : ℕ) : ℝ) * 1 := by
  intro d hd
  simp only [List.mem_cons, List.not_mem_nil, or_false] at hd
  rcases hd with rfl | rfl | rfl | rfl | rfl <;> norm_num

end Wafo.Kde
