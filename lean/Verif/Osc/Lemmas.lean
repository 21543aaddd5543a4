import Mathlib.Algebra.Polynomial.Sequence
import Mathlib.LinearAlgebra.Lagrange
import Mathlib.LinearAlgebra.Matrix.NonsingularInverse
import Mathlib.MeasureTheory.Integral.IntervalIntegral.FundThmCalculus
import Mathlib.Analysis.Calculus.Deriv.Polynomial
import Mathlib.Topology.Algebra.Polynomial
import Mathlib.RingTheory.Polynomial.DegreeLT
import Mathlib.Analysis.Complex.RealDeriv
import Mathlib.Analysis.SpecialFunctions.ExpDeriv
import Mathlib.MeasureTheory.Integral.IntervalIntegral.IntegrationByParts
import Verif.Osc.Model

/-! Lemmas for the quadrature of oscillating functions. -/

set_option linter.unusedSectionVars false

namespace Wafo.Osc
open Finset

noncomputable section

/-! ### Lists and matrices -/

theorem zip_sum (a b : List ℂ) (h : a.length = b.length) :
    (List.zipWith (· * ·) a b).sum = ∑ j ∈ range a.length, a.getD j 0 * b.getD j 0 := by
  induction a generalizing b with
  | nil => simp
  | cons u a ih =>
    cases b with
    | nil => simp at h
    | cons v b =>
      simp only [List.zipWith_cons_cons, List.sum_cons, List.length_cons]
      rw [sum_range_succ', ih b (by simpa using h), add_comm]
      simp

/-- The product of a matrix, given by its rows, and a vector. -/
def matVec (A : List (List ℂ)) (v : List ℂ) : List ℂ := A.map fun r => (List.zipWith (· * ·) r v).sum

/-- A square matrix with `n` rows whose columns are linearly independent. -/
structure Nonsingular (n : ℕ) (A : List (List ℂ)) : Prop where
  rows : A.length = n
  cols : ∀ r ∈ A, r.length = n
  inj : ∀ v : List ℂ, v.length = n → matVec A v = List.replicate n 0 → v = List.replicate n 0

/-- `lstsq` returns the solution of every nonsingular system. -/
def Solves (lstsq : Lstsq) : Prop :=
  ∀ (n : ℕ) (A : List (List ℂ)) (b : List ℂ), Nonsingular n A → b.length = n → (lstsq A b).length = n ∧ matVec A (lstsq A b) = b

/-- The matrix as a function. -/
def toM (n : ℕ) (A : List (List ℂ)) : Matrix (Fin n) (Fin n) ℂ := Matrix.of fun k j => (A.getD k []).getD j 0

theorem matVec_ofFn {n : ℕ} {A : List (List ℂ)} (h1 : A.length = n) (h2 : ∀ r ∈ A, r.length = n) (v : Fin n → ℂ) :
    matVec A (List.ofFn v) = List.ofFn ((toM n A).mulVec v) := by
  refine List.ext_getElem (by simp [matVec, h1]) fun k hk hk' => ?_
  have hkA : k < A.length := by simpa [matVec] using hk
  have hr := h2 _ (List.getElem_mem hkA)
  simp only [matVec, List.getElem_map, List.getElem_ofFn]
  rw [zip_sum _ _ (by simp [hr]), hr, Matrix.mulVec, dotProduct, ← Fin.sum_univ_eq_sum_range (fun j => A[k].getD j 0 * (List.ofFn v).getD j 0)]
  refine sum_congr rfl fun j _ => ?_
  simp [toM, List.getD, List.getElem?_eq_getElem hkA]

theorem nonsingular_iff {n : ℕ} {A : List (List ℂ)} (h1 : A.length = n) (h2 : ∀ r ∈ A, r.length = n) :
    Nonsingular n A ↔ IsUnit (toM n A) := by
  rw [← Matrix.mulVec_injective_iff_isUnit]
  constructor
  · intro h
    have : Function.Injective (Matrix.mulVecLin (toM n A)) := by
      rw [injective_iff_map_eq_zero]
      intro v hv
      have := h.inj (List.ofFn v) (by simp) (by
        rw [matVec_ofFn h1 h2]
        have hv' : (toM n A).mulVec v = 0 := hv
        rw [hv']
        simp [Pi.zero_def])
      rw [show List.replicate n (0 : ℂ) = List.ofFn (fun _ : Fin n => (0 : ℂ)) by simp] at this
      exact List.ofFn_injective this
    exact this
  · intro h
    refine ⟨h1, h2, fun v hv e => ?_⟩
    subst hv
    have e1 : v = List.ofFn (fun i : Fin v.length => v[i]) := by simp
    rw [e1, matVec_ofFn h1 h2] at e
    have e2 : (toM v.length A).mulVec (fun i : Fin v.length => v[i]) = 0 := by
      refine List.ofFn_injective ?_
      rw [e]
      simp [Pi.zero_def]
    have e3 := h (e2.trans (Matrix.mulVec_zero _).symm)
    conv_lhs => rw [e1, e3]
    simp [Pi.zero_def]

/-- Such functions exist. -/
theorem exists_solves : ∃ lstsq, Solves lstsq := by
  classical
  have h : ∀ (A : List (List ℂ)) (b : List ℂ), ∃ v : List ℂ, Nonsingular b.length A → v.length = b.length ∧ matVec A v = b := by
    intro A b
    by_cases hA : Nonsingular b.length A
    · have hu := (nonsingular_iff hA.rows hA.cols).1 hA
      obtain ⟨v, hv⟩ := (Matrix.mulVec_surjective_iff_isUnit).2 hu (fun i => b[i])
      refine ⟨List.ofFn v, fun _ => ⟨by simp, ?_⟩⟩
      rw [matVec_ofFn hA.rows hA.cols, hv]
      simp
    · exact ⟨[], fun h => absurd h hA⟩
  choose f hf using h
  refine ⟨f, fun n A b hA hb => ?_⟩
  subst hb
  exact hf A b hA

/-! ### Exactness of one step -/

/-- The functions of the basis are polynomials, one of each degree. -/
structure Graded (B : Basis) (P : ℕ → Polynomial ℝ) : Prop where
  fn : ∀ k t, B.fn k t = (P k).eval t
  d : ∀ n k t, B.d n k t = ((Polynomial.derivative^[n]) (P k)).eval t
  deg : ∀ k, (P k).degree = k

theorem poly_graded : Graded polyBasis fun k => Polynomial.X ^ k :=
  ⟨fun k t => by simp [polyBasis], fun _ _ _ => rfl, fun k => Polynomial.degree_X_pow k⟩

theorem cheb_graded : Graded chebBasis fun k => Polynomial.Chebyshev.T ℝ k :=
  ⟨fun _ _ => rfl, fun _ _ _ => rfl, fun k => by rw [Polynomial.Chebyshev.degree_T]; simp⟩

theorem Graded.hasDeriv {B : Basis} {P : ℕ → Polynomial ℝ} (h : Graded B P) (k : ℕ) (t : ℝ) : HasDerivAt (B.fn k) (B.d 1 k t) t := by
  have e : B.fn k = fun t => (P k).eval t := funext (h.fn k)
  rw [e, h.d]
  exact (P k).hasDerivAt t

theorem Graded.cont {B : Basis} {P : ℕ → Polynomial ℝ} (h : Graded B P) (k : ℕ) : Continuous (B.fn k) := by
  have e : B.fn k = fun t => (P k).eval t := funext (h.fn k)
  rw [e]
  exact (P k).continuous

theorem Graded.cont' {B : Basis} {P : ℕ → Polynomial ℝ} (h : Graded B P) (n k : ℕ) : Continuous (B.d n k) := by
  have e : B.d n k = fun t => ((Polynomial.derivative^[n]) (P k)).eval t := funext (h.d n k)
  rw [e]
  exact Polynomial.continuous _

/-- The function whose product with the oscillating factor is the derivative of `p_k` times that factor. -/
def image (om : ℝ) (dg : ℝ → ℝ) (B : Basis) (k : ℕ) (t : ℝ) : ℂ := (B.d 1 k t : ℂ) + Complex.I * om * ((dg t * B.fn k t : ℝ) : ℂ)

/-- The fundamental theorem for a combination of such functions. -/
theorem integral_image {B : Basis} {P : ℕ → Polynomial ℝ} (hB : Graded B P) (om : ℝ) {g dg : ℝ → ℝ}
    (hg : ∀ t ∈ Set.Icc (-1 : ℝ) 1, HasDerivAt g (dg t) t) (hdg : ContinuousOn dg (Set.Icc (-1) 1)) (n : ℕ) (c : ℕ → ℂ) :
    ∫ t in (-1 : ℝ)..1, (∑ k ∈ range n, c k * image om dg B k t) * phase om (g t) =
      ∑ k ∈ range n, c k * ((B.fn k 1 : ℂ) * phase om (g 1) - (B.fn k (-1) : ℂ) * phase om (g (-1))) := by
  have hu : Set.uIcc (-1 : ℝ) 1 = Set.Icc (-1) 1 := Set.uIcc_of_le (by norm_num)
  have hder : ∀ t ∈ Set.uIcc (-1 : ℝ) 1, HasDerivAt (fun t => (∑ k ∈ range n, c k * (B.fn k t : ℂ)) * phase om (g t))
      ((∑ k ∈ range n, c k * image om dg B k t) * phase om (g t)) t := by
    intro t ht
    rw [hu] at ht
    have h1 : HasDerivAt (fun t => ∑ k ∈ range n, c k * (B.fn k t : ℂ)) (∑ k ∈ range n, c k * (B.d 1 k t : ℂ)) t := by
      refine HasDerivAt.fun_sum fun k _ => ?_
      exact ((hB.hasDeriv k t).ofReal_comp).const_mul (c k)
    have h2 : HasDerivAt (fun t => phase om (g t)) (phase om (g t) * (Complex.I * om * (dg t : ℂ))) t := by
      unfold phase
      exact (((hg t ht).ofReal_comp).const_mul (Complex.I * (om : ℂ))).cexp
    refine (h1.mul h2).congr_deriv ?_
    simp only [image, mul_add, add_mul, sum_add_distrib, sum_mul]
    congr 1
    refine sum_congr rfl fun k _ => ?_
    push_cast
    ring
  have hgc : ContinuousOn g (Set.Icc (-1) 1) := fun t ht => (hg t ht).continuousAt.continuousWithinAt
  have hint : IntervalIntegrable (fun t => (∑ k ∈ range n, c k * image om dg B k t) * phase om (g t)) MeasureTheory.volume (-1) 1 := by
    refine ContinuousOn.intervalIntegrable ?_
    rw [hu]
    refine ContinuousOn.mul ?_ ?_
    · refine continuousOn_finsetSum _ fun k _ => continuousOn_const.mul ?_
      refine ContinuousOn.add ?_ ?_
      · exact (Complex.continuous_ofReal.comp (hB.cont' 1 k)).continuousOn
      · exact continuousOn_const.mul (Complex.continuous_ofReal.comp_continuousOn (hdg.mul (hB.cont k).continuousOn))
    · exact Complex.continuous_exp.comp_continuousOn (continuousOn_const.mul (Complex.continuous_ofReal.comp_continuousOn hgc))
  rw [intervalIntegral.integral_eq_sub_of_hasDerivAt hder hint]
  simp only [sum_mul, ← sum_sub_distrib]
  refine sum_congr rfl fun k _ => ?_
  ring

theorem ewMatrix_rows (om : ℝ) (dg : ℝ → ℝ) (x : List ℝ) (B : Basis) : (ewMatrix om dg x B).length = x.length := by simp [ewMatrix]

theorem ewMatrix_cols (om : ℝ) (dg : ℝ → ℝ) (x : List ℝ) (B : Basis) : ∀ r ∈ ewMatrix om dg x B, r.length = x.length := by
  intro r hr
  unfold ewMatrix at hr
  obtain ⟨k, _, rfl⟩ := List.mem_map.1 hr
  simp

theorem ew_exact {lstsq : Lstsq} (hl : Solves lstsq) {B : Basis} {P : ℕ → Polynomial ℝ} (hB : Graded B P) (om : ℝ) {g dg : ℝ → ℝ}
    (hg : ∀ t ∈ Set.Icc (-1 : ℝ) 1, HasDerivAt g (dg t) t) (hdg : ContinuousOn dg (Set.Icc (-1) 1)) {x : List ℝ}
    (hx : ∀ t ∈ x, t ∈ Set.Icc (-1 : ℝ) 1) (hA : Nonsingular x.length (ewMatrix om dg x B)) {f : ℝ → ℂ} {c : ℕ → ℂ}
    (hf : ∀ t ∈ Set.Icc (-1 : ℝ) 1, f t = ∑ k ∈ range x.length, c k * image om dg B k t) :
    (ewWeights lstsq om g dg x B).length = x.length ∧
    (List.zipWith (· * ·) (ewWeights lstsq om g dg x B) (x.map f)).sum = ∫ t in (-1 : ℝ)..1, f t * phase om (g t) := by
  set rhs := (List.range x.length).map fun k => (B.fn k 1 : ℂ) * phase om (g 1) - (B.fn k (-1) : ℂ) * phase om (g (-1)) with hrhs
  obtain ⟨hlen, heq⟩ := hl x.length (ewMatrix om dg x B) rhs hA (by simp [hrhs])
  have hw : ewWeights lstsq om g dg x B = lstsq (ewMatrix om dg x B) rhs := rfl
  rw [hw]
  set w := lstsq (ewMatrix om dg x B) rhs with hwdef
  refine ⟨hlen, ?_⟩
  have hu : Set.uIcc (-1 : ℝ) 1 = Set.Icc (-1) 1 := Set.uIcc_of_le (by norm_num)
  have e1 : ∫ t in (-1 : ℝ)..1, f t * phase om (g t) = ∫ t in (-1 : ℝ)..1, (∑ k ∈ range x.length, c k * image om dg B k t) * phase om (g t) := by
    refine intervalIntegral.integral_congr fun t ht => ?_
    rw [hf t (by rwa [hu] at ht)]
  rw [e1, integral_image hB om hg hdg, zip_sum _ _ (by simp [hlen]), hlen]
  have e2 : ∀ j ∈ range x.length, w.getD j 0 * (x.map f).getD j 0 = ∑ k ∈ range x.length, c k * (image om dg B k (x.getD j 0) * w.getD j 0) := by
    intro j hj
    have hj := mem_range.1 hj
    have a1 : (x.map f).getD j 0 = f (x.getD j 0) := by simp [List.getD, hj]
    have a2 : x.getD j 0 ∈ Set.Icc (-1 : ℝ) 1 := by
      have : x.getD j 0 = x[j] := by simp [List.getD, hj]
      rw [this]
      exact hx _ (List.getElem_mem hj)
    rw [a1, hf _ a2, mul_sum]
    refine sum_congr rfl fun k _ => ?_
    ring
  rw [sum_congr rfl e2, sum_comm]
  refine sum_congr rfl fun k hk => ?_
  rw [← mul_sum]
  congr 1
  have hk := mem_range.1 hk
  have e3 : (matVec (ewMatrix om dg x B) w).getD k 0 = rhs.getD k 0 := by rw [heq]
  have e4 : rhs.getD k 0 = (B.fn k 1 : ℂ) * phase om (g 1) - (B.fn k (-1) : ℂ) * phase om (g (-1)) := by
    simp [hrhs, List.getD, hk]
  have e5 : (matVec (ewMatrix om dg x B) w).getD k 0 = ∑ j ∈ range x.length, image om dg B k (x.getD j 0) * w.getD j 0 := by
    have : (matVec (ewMatrix om dg x B) w).getD k 0 =
        (List.zipWith (· * ·) (x.map fun t => image om dg B k t) w).sum := by
      simp [matVec, ewMatrix, List.getD, hk, image]
    rw [this, zip_sum _ _ (by simp [hlen]), List.length_map]
    refine sum_congr rfl fun j hj => ?_
    have hj := mem_range.1 hj
    simp [List.getD, hj]
  rw [e4, e5] at e3
  exact e3

/-! ### Linear phase -/

theorem toM_ew (om s : ℝ) (x : List ℝ) (B : Basis) (k j : Fin x.length) :
    toM x.length (ewMatrix om (fun _ => s) x B) k j = image om (fun _ => s) B k x[j] := by
  simp [toM, ewMatrix, List.getD, image]

/-- The polynomial `q' + i omega s q` for a combination of the polynomials of the basis. -/
def opPoly (n : ℕ) (om s : ℝ) (P : ℕ → Polynomial ℝ) (c : ℕ → ℂ) : Polynomial ℂ :=
  let q := ∑ k ∈ range n, Polynomial.C (c k) * (P k).map Complex.ofRealHom
  Polynomial.derivative q + Polynomial.C (Complex.I * om * s) * q

theorem eval_op {B : Basis} {P : ℕ → Polynomial ℝ} (hB : Graded B P) (n : ℕ) (om s : ℝ) (c : ℕ → ℂ) (t : ℝ) :
    (opPoly n om s P c).eval (t : ℂ) = ∑ k ∈ range n, c k * image om (fun _ => s) B k t := by
  have em : ∀ Q : Polynomial ℝ, (Q.map Complex.ofRealHom).eval (t : ℂ) = ((Q.eval t : ℝ) : ℂ) := by
    intro Q
    rw [Polynomial.eval_map, ← Complex.ofRealHom_eq_coe, ← Complex.ofRealHom_eq_coe, Polynomial.eval₂_at_apply]
  unfold opPoly image
  simp only [Polynomial.eval_add, Polynomial.eval_mul, Polynomial.eval_C, Polynomial.eval_finsetSum, Polynomial.derivative_sum,
    Polynomial.derivative_C_mul, Polynomial.derivative_map, em]
  rw [mul_sum, ← sum_add_distrib]
  refine sum_congr rfl fun k _ => ?_
  rw [hB.fn, hB.d]
  simp only [Function.iterate_one]
  push_cast
  ring

theorem op_degree {B : Basis} {P : ℕ → Polynomial ℝ} (hB : Graded B P) (n : ℕ) (om s : ℝ) (c : ℕ → ℂ) :
    (opPoly n om s P c).degree < n := by
  have hq : (∑ k ∈ range n, Polynomial.C (c k) * (P k).map Complex.ofRealHom) ∈ Polynomial.degreeLT ℂ n := by
    refine Submodule.sum_mem _ fun k hk => ?_
    rw [← Polynomial.smul_eq_C_mul]
    refine Submodule.smul_mem _ _ (Polynomial.mem_degreeLT.2 ?_)
    rw [Polynomial.degree_map, hB.deg]
    exact_mod_cast mem_range.1 hk
  refine Polynomial.mem_degreeLT.1 (Submodule.add_mem _ (Polynomial.mem_degreeLT.2 ?_) ?_)
  · exact (Polynomial.degree_derivative_le).trans_lt (Polynomial.mem_degreeLT.1 hq)
  · rw [← Polynomial.smul_eq_C_mul]
    exact Submodule.smul_mem _ _ hq

theorem op_zero {B : Basis} {P : ℕ → Polynomial ℝ} (hB : Graded B P) {n : ℕ} {om s : ℝ} (hs : om * s ≠ 0) {c : ℕ → ℂ}
    (h : opPoly n om s P c = 0) : ∀ k < n, c k = 0 := by
  set q := ∑ k ∈ range n, Polynomial.C (c k) * (P k).map Complex.ofRealHom with hq
  have hz : Complex.I * om * s ≠ 0 := by
    have : ((om * s : ℝ) : ℂ) ≠ 0 := by exact_mod_cast hs
    rw [mul_assoc, ← Complex.ofReal_mul]
    exact mul_ne_zero Complex.I_ne_zero this
  have hq0 : q = 0 := by
    by_contra hne
    have h1 : Polynomial.derivative q = -(Polynomial.C (Complex.I * om * s) * q) := eq_neg_of_add_eq_zero_left h
    have h2 := Polynomial.degree_derivative_lt hne
    rw [h1, Polynomial.degree_neg, Polynomial.degree_C_mul hz] at h2
    exact lt_irrefl _ h2
  let S : Polynomial.Sequence ℂ := ⟨fun k => (P k).map Complex.ofRealHom, fun k => by rw [Polynomial.degree_map, hB.deg]⟩
  have hli := S.linearIndependent
  rw [linearIndependent_iff'] at hli
  intro k hk
  refine hli (range n) c ?_ k (mem_range.2 hk)
  rw [← hq0, hq]
  refine sum_congr rfl fun k _ => ?_
  rw [Polynomial.smul_eq_C_mul]

theorem linear_unit {B : Basis} {P : ℕ → Polynomial ℝ} (hB : Graded B P) {om s : ℝ} (hs : om * s ≠ 0) {x : List ℝ} (hx : x.Nodup) :
    IsUnit (toM x.length (ewMatrix om (fun _ => s) x B)) := by
  rw [← Matrix.vecMul_injective_iff_isUnit]
  have key : ∀ v : Fin x.length → ℂ, Matrix.vecMul v (toM x.length (ewMatrix om (fun _ => s) x B)) = 0 → v = 0 := by
    intro v hv
    let c : ℕ → ℂ := fun k => if h : k < x.length then v ⟨k, h⟩ else 0
    have hroot : ∀ j : Fin x.length, (opPoly x.length om s P c).eval ((x[j] : ℝ) : ℂ) = 0 := by
      intro j
      rw [eval_op hB, ← Fin.sum_univ_eq_sum_range (fun k => c k * image om (fun _ => s) B k x[j])]
      have := congrFun hv j
      rw [Matrix.vecMul, dotProduct] at this
      rw [← Pi.zero_apply (M := fun _ => ℂ) j, ← this]
      refine sum_congr rfl fun k _ => ?_
      rw [toM_ew]
      simp [c]
    have h0 : opPoly x.length om s P c = 0 := by
      refine Polynomial.eq_zero_of_degree_lt_of_eval_finset_eq_zero (x.toFinset.image fun t : ℝ => (t : ℂ)) ?_ ?_
      · rw [card_image_of_injective _ Complex.ofReal_injective, List.toFinset_card_of_nodup hx]
        exact op_degree hB _ _ _ _
      · intro z hz
        obtain ⟨t, ht, rfl⟩ := mem_image.1 hz
        obtain ⟨j, hj, rfl⟩ := List.getElem_of_mem (List.mem_toFinset.1 ht)
        exact hroot ⟨j, hj⟩
    have := op_zero hB hs h0
    funext k
    have := this k k.2
    simpa [c] using this
  have : Function.Injective (Matrix.vecMulLinear (toM x.length (ewMatrix om (fun _ => s) x B))) := by
    rw [injective_iff_map_eq_zero]
    intro v hv
    exact key v hv
  exact this

theorem linear_nonsingular {B : Basis} {P : ℕ → Polynomial ℝ} (hB : Graded B P) {om s : ℝ} (hs : om * s ≠ 0) {x : List ℝ} (hx : x.Nodup) :
    Nonsingular x.length (ewMatrix om (fun _ => s) x B) :=
  (nonsingular_iff (ewMatrix_rows _ _ _ _) (ewMatrix_cols _ _ _ _)).2 (linear_unit hB hs hx)

/-- Polynomials of degree below the number of nodes are in the span. -/
theorem linear_span {B : Basis} {P : ℕ → Polynomial ℝ} (hB : Graded B P) {om s : ℝ} (hs : om * s ≠ 0) {x : List ℝ} (hx : x.Nodup)
    {F : Polynomial ℂ} (hF : F.degree < x.length) :
    ∃ c : ℕ → ℂ, ∀ t : ℝ, F.eval (t : ℂ) = ∑ k ∈ range x.length, c k * image om (fun _ => s) B k t := by
  obtain ⟨v, hv⟩ := (Matrix.vecMul_surjective_iff_isUnit).2 (linear_unit hB hs hx) (fun j => F.eval ((x[j] : ℝ) : ℂ))
  let c : ℕ → ℂ := fun k => if h : k < x.length then v ⟨k, h⟩ else 0
  have heq : opPoly x.length om s P c = F := by
    refine Polynomial.eq_of_degrees_lt_of_eval_finset_eq (x.toFinset.image fun t : ℝ => (t : ℂ)) ?_ ?_ ?_
    · rw [card_image_of_injective _ Complex.ofReal_injective, List.toFinset_card_of_nodup hx]
      exact op_degree hB _ _ _ _
    · rw [card_image_of_injective _ Complex.ofReal_injective, List.toFinset_card_of_nodup hx]
      exact hF
    · intro z hz
      obtain ⟨t, ht, rfl⟩ := mem_image.1 hz
      obtain ⟨j, hj, rfl⟩ := List.getElem_of_mem (List.mem_toFinset.1 ht)
      have := congrFun hv ⟨j, hj⟩
      simp only [Matrix.vecMul, dotProduct] at this
      rw [eval_op hB, ← Fin.sum_univ_eq_sum_range (fun k => c k * image om (fun _ => s) B k x[j])]
      simp only [Fin.getElem_fin] at this
      rw [← this]
      refine sum_congr rfl fun k _ => ?_
      have e := toM_ew om s x B k ⟨j, hj⟩
      rw [e]
      simp [c]
  refine ⟨c, fun t => ?_⟩
  rw [← heq, eval_op hB]

end

end Wafo.Osc
