import Mathlib.Analysis.Calculus.IteratedDeriv.Lemmas
import Mathlib.Analysis.Calculus.ContDiff.Operations
import Mathlib.Analysis.Calculus.ContDiff.Polynomial
import Verif.Cross.Props
import Verif.Osc.Props

/-! Quadrature of oscillating functions: collocation of Levin and the subdivision of the interval. -/

set_option linter.unusedSectionVars false

namespace Wafo.Osc
open Finset

noncomputable section

/-! ### Lemmas -/

theorem Nonsingular.unique {n : ℕ} {A : List (List ℂ)} (hA : Nonsingular n A) {u w : List ℂ} (hu : u.length = n) (hw : w.length = n)
    (h : matVec A u = matVec A w) : u = w := by
  have hU := (nonsingular_iff hA.rows hA.cols).1 hA
  have key : ∀ l : List ℂ, l.length = n → l = List.ofFn fun i : Fin n => l.getD i 0 := by
    intro l hl
    refine List.ext_getElem (by simp [hl]) fun i h1 h2 => ?_
    simp [List.getD, List.getElem?_eq_getElem h1]
  rw [key u hu, key w hw, matVec_ofFn hA.rows hA.cols, matVec_ofFn hA.rows hA.cols] at h
  have := (Matrix.mulVec_injective_iff_isUnit).2 hU (List.ofFn_injective h)
  rw [key u hu, key w hw, this]

/-- The matrix of `_a_levin`. -/
def levinMatrix (D : ℕ → (ℝ → ℝ) → ℝ → ℝ) (om : ℝ) (dg : ℝ → ℝ) (x : List ℝ) (s : ℕ) (B : Basis) : List (List ℂ) :=
  (rows x s).map fun r => (List.range (rows x s).length).map fun k =>
    (B.d (r.2 + 1) k r.1 : ℂ) + Complex.I * om * ((D r.2 (fun t => dg t * B.fn k t) r.1 : ℝ) : ℂ)

theorem matVec_levin (D : ℕ → (ℝ → ℝ) → ℝ → ℝ) (om : ℝ) (dg : ℝ → ℝ) (x : List ℝ) (s : ℕ) (B : Basis) (c : ℕ → ℂ) :
    matVec (levinMatrix D om dg x s B) ((List.range (rows x s).length).map c) = (rows x s).map fun r => ∑ k ∈ range (rows x s).length,
      c k * ((B.d (r.2 + 1) k r.1 : ℂ) + Complex.I * om * ((D r.2 (fun t => dg t * B.fn k t) r.1 : ℝ) : ℂ)) := by
  unfold matVec levinMatrix
  rw [List.map_map]
  refine List.map_congr_left fun r _ => ?_
  simp only [Function.comp]
  rw [zip_sum _ _ (by simp)]
  simp only [List.length_map, List.length_range]
  refine sum_congr rfl fun k hk => ?_
  have := mem_range.1 hk
  simp [List.getD, this, mul_comm]

theorem levin_value {lstsq : Lstsq} (hl : Solves lstsq) {D : ℕ → (ℝ → ℝ) → ℝ → ℝ} {om : ℝ} {f g dg : ℝ → ℝ} {x : List ℝ} {s : ℕ} {B : Basis}
    (hA : Nonsingular (rows x s).length (levinMatrix D om dg x s B)) {c : ℕ → ℂ}
    (hc : ∀ r ∈ rows x s, ((D r.2 f r.1 : ℝ) : ℂ) = ∑ k ∈ range (rows x s).length,
      c k * ((B.d (r.2 + 1) k r.1 : ℂ) + Complex.I * om * ((D r.2 (fun t => dg t * B.fn k t) r.1 : ℝ) : ℂ))) :
    levin lstsq D om f g dg x s B =
      ∑ k ∈ range (rows x s).length, c k * ((B.fn k 1 : ℂ) * phase om (g 1) - (B.fn k (-1) : ℂ) * phase om (g (-1))) := by
  have hsol := hl _ (levinMatrix D om dg x s B) ((rows x s).map fun r => ((D r.2 f r.1 : ℝ) : ℂ)) hA (by simp)
  have hc' : lstsq (levinMatrix D om dg x s B) ((rows x s).map fun r => ((D r.2 f r.1 : ℝ) : ℂ)) = (List.range (rows x s).length).map c := by
    refine hA.unique hsol.1 (by simp) ?_
    rw [hsol.2, matVec_levin]
    exact List.map_congr_left hc
  have e : levin lstsq D om f g dg x s B =
      let c := lstsq (levinMatrix D om dg x s B) ((rows x s).map fun r => ((D r.2 f r.1 : ℝ) : ℂ))
      let v : ℝ → ℂ := fun t => ∑ k ∈ Finset.range c.length, c.getD k 0 * (B.fn k t : ℂ)
      v 1 * phase om (g 1) - v (-1) * phase om (g (-1)) := rfl
  rw [e, hc']
  simp only [List.length_map, List.length_range]
  rw [sum_mul, sum_mul, ← sum_sub_distrib]
  refine sum_congr rfl fun k hk => ?_
  have := mem_range.1 hk
  simp only [List.getD, List.getElem?_map, List.getElem?_range this, Option.map_some, Option.getD_some]
  ring

theorem Graded.hasDeriv' {B : Basis} {P : ℕ → Polynomial ℝ} (h : Graded B P) (n k : ℕ) (t : ℝ) : HasDerivAt (B.d n k) (B.d (n + 1) k t) t := by
  have e : B.d n k = fun t => ((Polynomial.derivative^[n]) (P k)).eval t := funext (h.d n k)
  rw [e, h.d, Function.iterate_succ_apply']
  exact Polynomial.hasDerivAt _ t

theorem Graded.contDiff {B : Basis} {P : ℕ → Polynomial ℝ} (h : Graded B P) (k n : ℕ) : ContDiff ℝ n (B.fn k) := by
  have e : B.fn k = fun t => (P k).eval t := funext (h.fn k)
  rw [e]
  simpa [Polynomial.coe_aeval_eq_eval] using (P k).contDiff_aeval (𝕜 := ℝ) n

/-- The derivatives of a function in the span. -/
theorem span_deriv {B : Basis} {P : ℕ → Polynomial ℝ} (hB : Graded B P) {om : ℝ} {f dg : ℝ → ℝ} {s : ℕ} (hdg : ContDiff ℝ s dg) {n : ℕ} {c : ℕ → ℂ}
    (hf : ∀ t, (f t : ℂ) = ∑ k ∈ range n, c k * image om dg B k t) (j : ℕ) (hj : j < s) (t : ℝ) :
    ((iteratedDeriv j f t : ℝ) : ℂ) = ∑ k ∈ range n,
      c k * ((B.d (j + 1) k t : ℂ) + Complex.I * om * ((iteratedDeriv j (fun t => dg t * B.fn k t) t : ℝ) : ℂ)) := by
  induction j generalizing t with
  | zero =>
    simp only [iteratedDeriv_zero]
    exact hf t
  | succ j ih =>
    have ih' := ih (by omega)
    set F : ℕ → ℝ → ℂ := fun j t => ∑ k ∈ range n,
      c k * ((B.d (j + 1) k t : ℂ) + Complex.I * om * ((iteratedDeriv j (fun t => dg t * B.fn k t) t : ℝ) : ℂ)) with hF
    have hder : ∀ t, HasDerivAt (F j) (F (j + 1) t) t := by
      intro t
      refine HasDerivAt.fun_sum fun k _ => HasDerivAt.const_mul _ (HasDerivAt.add ?_ (HasDerivAt.const_mul _ ?_))
      · exact (hB.hasDeriv' (j + 1) k t).ofReal_comp
      · have h1 : ContDiff ℝ s (fun t => dg t * B.fn k t) := hdg.mul (hB.contDiff k s)
        have h2 := (h1.differentiable_iteratedDeriv j (by exact_mod_cast (by omega : j < s))) t
        rw [iteratedDeriv_succ]
        exact h2.hasDerivAt.ofReal_comp
    have hre : ∀ t, iteratedDeriv j f t = (F j t).re := fun t => by
      rw [hF]; simp only []; rw [← ih' t, Complex.ofReal_re]
    have him : ∀ t, (F j t).im = 0 := fun t => by
      rw [hF]; simp only []; rw [← ih' t, Complex.ofReal_im]
    have h1 : HasDerivAt (iteratedDeriv j f) (F (j + 1) t).re t := by
      have := Complex.reCLM.hasFDerivAt.comp_hasDerivAt t (hder t)
      have e : iteratedDeriv j f = Complex.reCLM ∘ F j := funext hre
      rw [e]
      exact this
    have h2 : (F (j + 1) t).im = 0 := by
      have := Complex.imCLM.hasFDerivAt.comp_hasDerivAt t (hder t)
      have e : Complex.imCLM ∘ F j = fun _ => 0 := funext him
      rw [e] at this
      exact this.unique (hasDerivAt_const t 0)
    rw [iteratedDeriv_succ, h1.deriv]
    refine Eq.trans ?_ (rfl : F (j + 1) t = _)
    exact Complex.ext (Complex.ofReal_re _) (by rw [Complex.ofReal_im, h2])

theorem rows_lt {x : List ℝ} {s : ℕ} (hs : 1 ≤ s) {r : ℝ × ℕ} (hr : r ∈ rows x s) : r.2 < s := by
  unfold rows at hr
  simp only [List.mem_flatMap, List.mem_map, List.mem_range] at hr
  obtain ⟨i, _, j, hj, rfl⟩ := hr
  split_ifs at hj <;> simp only [] <;> omega

/-! ### C209 -/

/-- The collocation of Levin gives the exact integral of every function in the span of `p_k' + i omega g' p_k`, for every multiplicity
`s` of the first and the last node, if the system is nonsingular. -/
theorem C209_exact {lstsq : Lstsq} (hl : Solves lstsq) {B : Basis} (hB : IsBasis B) (om : ℝ) {g dg : ℝ → ℝ}
    (hg : ∀ t, HasDerivAt g (dg t) t) {s : ℕ} (hs : 1 ≤ s) (hdg : ContDiff ℝ s dg) {x : List ℝ}
    (hA : Nonsingular (rows x s).length (levinMatrix iteratedDeriv om dg x s B)) {f : ℝ → ℝ} {c : ℕ → ℂ}
    (hf : ∀ t, (f t : ℂ) = ∑ k ∈ range (rows x s).length, c k * (((deriv (B.fn k) t : ℝ) : ℂ) + Complex.I * om * dg t * B.fn k t)) :
    levin lstsq iteratedDeriv om f g dg x s B = ∫ t in (-1 : ℝ)..1, f t * Complex.exp (Complex.I * om * g t) := by
  obtain ⟨P, hP⟩ := hB.graded
  have hf' : ∀ t, (f t : ℂ) = ∑ k ∈ range (rows x s).length, c k * image om dg B k t := fun t => by
    rw [hf t]
    refine sum_congr rfl fun k _ => ?_
    rw [image, (hP.hasDeriv k t).deriv]
    push_cast
    ring
  rw [levin_value hl hA (c := c) (fun r hr => span_deriv hP hdg hf' r.2 (rows_lt hs hr) r.1), ← integral_image hP om (fun t _ => hg t)
    hdg.continuous.continuousOn]
  refine intervalIntegral.integral_congr fun t _ => ?_
  show _ = ((f t : ℝ) : ℂ) * _
  rw [hf' t]
  rfl

theorem rows_one (x : List ℝ) : rows x 1 = x.map fun t => (t, 0) := by
  unfold rows
  simp only [ite_self, List.range_one, List.map_cons, List.map_nil]
  have e : (List.range x.length).flatMap (fun r => [(x.getD r 0, (0 : ℕ))]) = (List.range x.length).map fun r => (x.getD r 0, (0 : ℕ)) := by
    rw [← List.flatMap_singleton' (List.map _ _), List.flatMap_map]
  rw [e]
  refine List.ext_getElem (by simp) fun i h1 h2 => ?_
  have hi : i < x.length := by simpa using h2
  rw [List.getElem_map, List.getElem_map, List.getElem_range]
  simp [List.getD, List.getElem?_eq_getElem hi]

theorem levin_unit {B : Basis} {P : ℕ → Polynomial ℝ} (hB : Graded B P) {om s : ℝ} (hs : om * s ≠ 0) {x : List ℝ} (hx : x.Nodup) :
    Nonsingular (rows x 1).length (levinMatrix iteratedDeriv om (fun _ => s) x 1 B) := by
  have hlen : (rows x 1).length = x.length := by simp [rows_one]
  have h1 : (levinMatrix iteratedDeriv om (fun _ => s) x 1 B).length = x.length := by simp [levinMatrix, hlen]
  have h2 : ∀ r ∈ levinMatrix iteratedDeriv om (fun _ => s) x 1 B, r.length = x.length := by
    intro r hr
    unfold levinMatrix at hr
    obtain ⟨q, _, rfl⟩ := List.mem_map.1 hr
    simp [hlen]
  rw [hlen, nonsingular_iff h1 h2]
  have e : toM x.length (levinMatrix iteratedDeriv om (fun _ => s) x 1 B) = (toM x.length (ewMatrix om (fun _ => s) x B)).transpose := by
    ext k j
    rw [Matrix.transpose_apply, toM_ew]
    simp [toM, levinMatrix, rows_one, List.getD, image]
  rw [e, Matrix.isUnit_transpose]
  exact linear_unit hB hs hx

/-- For a linear phase, distinct points and `s = 1` the system is nonsingular and the collocation of Levin is exact for polynomials of
degree less than the number of points. -/
theorem C209_linear {lstsq : Lstsq} (hl : Solves lstsq) {B : Basis} (hB : IsBasis B) {om s : ℝ} (hs : om * s ≠ 0) (o : ℝ) {x : List ℝ}
    (hn : x.Nodup) {F : Polynomial ℝ} (hF : F.degree < x.length) :
    levin lstsq iteratedDeriv om (fun t => F.eval t) (fun t => s * t + o) (fun _ => s) x 1 B =
      ∫ t in (-1 : ℝ)..1, (F.eval t : ℝ) * Complex.exp (Complex.I * om * (s * t + o : ℝ)) := by
  obtain ⟨P, hP⟩ := hB.graded
  have hlen : (rows x 1).length = x.length := by simp [rows_one]
  have hF' : (F.map Complex.ofRealHom).degree < x.length := by rwa [Polynomial.degree_map]
  obtain ⟨c, hc⟩ := linear_span hP hs hn hF'
  refine C209_exact hl hB om (f := fun t => F.eval t) (g := fun t => s * t + o) (dg := fun _ => s)
    (fun t => by simpa using ((hasDerivAt_id t).const_mul s).add_const o) le_rfl contDiff_const (levin_unit hP hs hn) (c := c) fun t => ?_
  rw [hlen]
  have e : ((F.eval t : ℝ) : ℂ) = (F.map Complex.ofRealHom).eval (t : ℂ) := by
    rw [Polynomial.eval_map, ← Complex.ofRealHom_eq_coe, ← Complex.ofRealHom_eq_coe, Polynomial.eval₂_at_apply]
  rw [e, hc t]
  refine sum_congr rfl fun k _ => ?_
  rw [image, (hP.hasDeriv k t).deriv]
  push_cast
  ring

/-- A quadratic polynomial and three points, in any order. -/
example {lstsq : Lstsq} (hl : Solves lstsq) :
    levin lstsq iteratedDeriv 7 (fun t => (Polynomial.X ^ 2 : Polynomial ℝ).eval t) (fun t => 3 * t + 2) (fun _ => 3) [1 / 2, -1, 0] 1 polyBasis =
      ∫ t in (-1 : ℝ)..1, ((Polynomial.X ^ 2 : Polynomial ℝ).eval t : ℝ) * Complex.exp (Complex.I * (7 : ℝ) * (3 * t + 2 : ℝ)) :=
  C209_linear hl (Or.inl rfl) (by norm_num) 2 (by norm_num) (by
    rw [Polynomial.degree_X_pow]
    norm_num)

/-! ### C210 -/

theorem mapM_exists {β γ : Type} (f : β → Except PyErr γ) : ∀ l : List β, (∀ i ∈ l, ∃ r, f i = .ok r) →
    ∃ rs, l.mapM f = .ok rs ∧ ∀ c, c ∈ rs ↔ ∃ i ∈ l, f i = .ok c
  | [], _ => ⟨[], rfl, by simp⟩
  | i :: t, h => by
    obtain ⟨r, hr⟩ := h i (by simp)
    obtain ⟨rs, hrs, hm⟩ := mapM_exists f t fun j hj => h j (by simp [hj])
    refine ⟨r :: rs, ?_, fun c => ?_⟩
    · rw [List.mapM_cons, hr, hrs]; rfl
    · rw [List.mem_cons, hm]
      constructor
      · rintro (rfl | ⟨j, hj, hc⟩)
        · exact ⟨i, by simp, hr⟩
        · exact ⟨j, by simp [hj], hc⟩
      · rintro ⟨j, hj, hc⟩
        rcases List.mem_cons.1 hj with rfl | hj
        · left; rw [hr] at hc; exact (Except.ok.inj hc).symm
        · exact Or.inr ⟨j, hj, hc⟩

theorem crossings_ok {x y : List ℝ} (hxy : x.length = y.length) (hy : y ≠ []) (v : ℝ) :
    ∃ l, crossings x y v = .ok l ∧ ∀ c, c ∈ l ↔ ∃ i, Cross.IsCrossing y v i ∧ Cross.ecross1 x y v i = .ok c := by
  obtain ⟨ind, hind, hmem⟩ := Cross.C01_findcross_exact y v hy
  obtain ⟨l, hl, hm⟩ := mapM_exists (Cross.ecross1 x y v) ind (fun i hi => by
    have h0 := hind
    rw [Cross.findcross_none_eq] at h0
    obtain ⟨a, b, ha, hb, hb0, hab⟩ := Cross.findcross0_prev _ _ h0 i hi
    obtain ⟨f0, hf0, hsa⟩ := (Cross.signs_some_iff _ _ _ _).1 ha
    obtain ⟨f1, hf1, hsb⟩ := (Cross.signs_some_iff _ _ _ _).1 hb
    have hne : f1 - f0 ≠ 0 := by
      intro h
      have : f1 = f0 := by linarith
      rw [this, hsa] at hsb
      rw [hsb] at hab
      nlinarith [sq_nonneg b, sq_pos_of_ne_zero hb0]
    have hi0 : i < y.length := (List.getElem?_eq_some_iff.1 hf0).1
    have hi1 : i + 1 < y.length := (List.getElem?_eq_some_iff.1 hf1).1
    refine ⟨x[i]'(by omega) + (v - f0) * (x[i + 1]'(by omega) - x[i]'(by omega)) / (f1 - f0), ?_⟩
    · unfold Cross.ecross1
      rw [List.getElem?_eq_getElem (by omega : i < x.length), List.getElem?_eq_getElem (by omega : i + 1 < x.length), hf0, hf1]
      simp only [if_neg hne])
  refine ⟨l, ?_, fun c => ?_⟩
  · unfold crossings
    rw [hind]
    exact hl
  · rw [hm]
    constructor
    · rintro ⟨i, hi, hc⟩; exact ⟨i, (hmem i).1 hi, hc⟩
    · rintro ⟨i, hi, hc⟩; exact ⟨i, (hmem i).2 hi, hc⟩

/-- The interval is divided at the points where the sampled derivative of the scaled phase crosses 30, 1, 0, -1 or -30, by linear
interpolation; the limits are increasing for `a < b`, and for `b <= a` there is one part. -/
theorem C210_limits (om : ℝ) (dg : ℝ → ℝ) (a b : ℝ) : ∃ mid : List ℝ, limits om dg a b = .ok (a :: mid ++ [b]) ∧
    (a < b → (a :: mid ++ [b]).Pairwise (· < ·)) ∧ (b ≤ a → mid = []) ∧
    ∀ c, c ∈ mid ↔ a < c ∧ c < b ∧ ∃ v ∈ [30, 1, 0, -1, -30], ∃ i,
      Cross.IsCrossing ((grid a b).map fun t => (b - a) / 2 * om * dg t) v i ∧
      Cross.ecross1 (grid a b) ((grid a b).map fun t => (b - a) / 2 * om * dg t) v i = .ok c := by
  set x := grid a b with hx
  set y := x.map fun t => (b - a) / 2 * om * dg t with hy
  have hxy : x.length = y.length := by simp [hy]
  have hne : y ≠ [] := by
    rw [← List.length_pos_iff, ← hxy, hx]
    simp [grid]
  obtain ⟨l1, h1, m1⟩ := crossings_ok hxy hne 30
  obtain ⟨l2, h2, m2⟩ := crossings_ok hxy hne 1
  obtain ⟨l3, h3, m3⟩ := crossings_ok hxy hne 0
  obtain ⟨l4, h4, m4⟩ := crossings_ok hxy hne (-1)
  obtain ⟨l5, h5, m5⟩ := crossings_ok hxy hne (-30)
  set all := ((l1 ++ l2 ++ l3 ++ l4 ++ l5).dedup).insertionSort (· ≤ ·) with hall
  have hmem : ∀ c, c ∈ all.filter (fun i => a < i ∧ i < b) ↔ (a < c ∧ c < b) ∧ (c ∈ l1 ∨ c ∈ l2 ∨ c ∈ l3 ∨ c ∈ l4 ∨ c ∈ l5) := by
    intro c
    simp only [hall, List.mem_filter, List.mem_insertionSort, List.mem_dedup, List.mem_append, decide_eq_true_eq]
    tauto
  refine ⟨all.filter (fun i => a < i ∧ i < b), ?_, fun hab => ?_, fun hab => ?_, fun c => ?_⟩
  · unfold limits
    simp only [← hx, ← hy, h1, h2, h3, h4, h5]
    rfl
  · have hs : (all.filter (fun i => a < i ∧ i < b)).Pairwise (· < ·) := by
      refine List.Pairwise.filter _ ?_
      have p1 : all.Pairwise (· ≤ ·) := List.pairwise_insertionSort _ _
      have p2 : all.Nodup := (List.perm_insertionSort _ _).nodup_iff.2 (List.nodup_dedup _)
      exact (p1.and p2).imp fun h => lt_of_le_of_ne h.1 h.2
    rw [List.cons_append, List.pairwise_cons, List.pairwise_append]
    refine ⟨fun c hc => ?_, hs, by simp, fun c hc d hd => ?_⟩
    · rcases List.mem_append.1 hc with hc | hc
      · exact ((hmem c).1 hc).1.1
      · rw [List.mem_singleton.1 hc]; exact hab
    · rw [List.mem_singleton.1 hd]; exact ((hmem c).1 hc).1.2
  · rw [List.eq_nil_iff_forall_not_mem]
    intro c hc
    have := ((hmem c).1 hc).1
    linarith [this.1, this.2]
  · rw [hmem, m1, m2, m3, m4, m5, and_assoc]
    simp

/-- A quadratic phase: the derivative crosses every level between its extreme values. -/
example : Cross.IsCrossing ([-2, -1 / 2, 1 / 2, 2] : List ℝ) 0 1 :=
  ⟨1 / 2, by simp, by norm_num, Or.inr ⟨1, le_rfl, -1 / 2, by simp, Or.inl ⟨by norm_num, by norm_num⟩, fun k h1 h2 => by omega⟩⟩

theorem chain_zip (mid : List ℝ) (a b : ℝ) : Chain a (List.zip (a :: mid ++ [b]).dropLast ((a :: mid ++ [b]).drop 1)) b := by
  induction mid generalizing a with
  | nil => exact ⟨rfl, rfl⟩
  | cons c mid ih => exact ⟨rfl, ih c⟩

theorem zip_strict (mid : List ℝ) (a b : ℝ) (h : (a :: mid ++ [b]).Pairwise (· < ·)) :
    ∀ p ∈ List.zip (a :: mid ++ [b]).dropLast ((a :: mid ++ [b]).drop 1), p.1 < p.2 := by
  induction mid generalizing a with
  | nil =>
    intro p hp
    rw [show List.zip ((a :: [] ++ [b]).dropLast) ((a :: [] ++ [b]).drop 1) = [(a, b)] from rfl, List.mem_singleton] at hp
    subst hp
    simpa using h
  | cons c mid ih =>
    intro p hp
    have e : List.zip ((a :: (c :: mid) ++ [b]).dropLast) ((a :: (c :: mid) ++ [b]).drop 1) =
      (a, c) :: List.zip (c :: mid ++ [b]).dropLast ((c :: mid ++ [b]).drop 1) := rfl
    rw [e] at hp
    have h' := List.pairwise_cons.1 h
    rcases List.mem_cons.1 hp with rfl | hp
    · exact h'.1 c (by simp)
    · exact ih c h'.2 p hp

/-- If the value on every part with different limits is the integral over this part, the sum is the integral over the whole interval. -/
theorem C210_sum (piece : ℝ → ℝ → ℂ × ℝ × ℕ) (om : ℝ) (dg : ℝ → ℝ) {a b : ℝ} (hab : a ≠ b) {F : ℝ → ℂ} (hF : Continuous F)
    (hp : ∀ u v, u ≠ v → (piece u v).1 = ∫ t in u..v, F t) :
    ∃ e n, adaptive piece om dg a b = .ok (∫ t in a..b, F t, e, n) := by
  obtain ⟨mid, hl, h1, h2, -⟩ := C210_limits om dg a b
  have hne : ∀ p ∈ List.zip (a :: mid ++ [b]).dropLast ((a :: mid ++ [b]).drop 1), p.1 ≠ p.2 := by
    rcases lt_or_gt_of_ne hab with h | h
    · exact fun p hp => (zip_strict mid a b (h1 h) p hp).ne
    · rw [h2 h.le]
      intro p hp
      rw [show List.zip ((a :: [] ++ [b]).dropLast) ((a :: [] ++ [b]).drop 1) = [(a, b)] from rfl, List.mem_singleton] at hp
      subst hp
      exact hab
  unfold adaptive
  rw [hl]
  refine ⟨_, _, congrArg Except.ok (Prod.ext ?_ rfl)⟩
  simp only [List.map_map]
  rw [← (chain_zip mid a b).integral fun x y => hF.intervalIntegrable _ _]
  refine congrArg List.sum (List.map_congr_left fun p hpm => ?_)
  exact hp _ _ (hne p hpm)

/-- The last value, if the current one and all the others are equal. -/
theorem refine_const {q : ℕ → ℂ} {num : ℕ → ℕ} {abseps : ℝ} {l : List ℕ} {v : ℂ} (h : ∀ k ∈ l, q k = v) (e : ℝ) (cnt old : ℕ) :
    (refine q num abseps l v e cnt old).1 = v := by
  induction l generalizing e cnt old with
  | nil => rfl
  | cons m t ih =>
    have hm := h m (by simp)
    have ht := fun k hk => h k (List.mem_cons_of_mem m hk)
    unfold refine
    simp only [hm]
    split_ifs
    · rfl
    · exact ih ht _ _ _
    · exact ih ht _ _ _

theorem refine_exact {q : ℕ → ℂ} {num : ℕ → ℕ} {abseps : ℝ} {l : List ℕ} {v : ℂ} (h : ∀ k ∈ l, q k = v) (hl : l ≠ []) (hn : ∀ k ∈ l, 0 < num k)
    (first : ℂ) (e : ℝ) (cnt : ℕ) : (refine q num abseps l first e cnt 0).1 = v := by
  cases l with
  | nil => exact absurd rfl hl
  | cons m t =>
    have hm := h m (by simp)
    have ht := fun k hk => h k (List.mem_cons_of_mem m hk)
    unfold refine
    rw [if_pos (hn m (by simp))]
    simp only [hm]
    split_ifs
    · rfl
    · exact refine_const ht _ _ _

theorem comp_degree {R : Type*} [CommRing R] [IsDomain R] {F : Polynomial R} {n : ℕ} (hF : F.degree < n) (h o : R) :
    (Polynomial.C h * F.comp (Polynomial.C h * Polynomial.X + Polynomial.C o)).degree < n := by
  by_cases hF0 : F = 0
  · simp only [hF0, Polynomial.zero_comp, mul_zero, Polynomial.degree_zero]
    exact WithBot.bot_lt_coe _
  · have h1 : F.natDegree < n := (Polynomial.natDegree_lt_iff_degree_lt hF0).2 hF
    refine (Polynomial.degree_le_natDegree).trans_lt ?_
    have h2 : (Polynomial.C h * F.comp (Polynomial.C h * Polynomial.X + Polynomial.C o)).natDegree ≤ F.natDegree := by
      refine (Polynomial.natDegree_C_mul_le _ _).trans ((Polynomial.natDegree_comp_le).trans ?_)
      refine (Nat.mul_le_mul_left _ (Polynomial.natDegree_linear_le)).trans (by simp)
    exact_mod_cast h2.trans_lt h1

theorem scaled_integral (F : ℝ → ℂ) (om s o a b : ℝ) :
    ∫ t in (-1 : ℝ)..1, ((((b - a) / 2 : ℝ) : ℂ) * F ((b - a) / 2 * t + (a + b) / 2)) *
      Complex.exp (Complex.I * om * (s * ((b - a) / 2 * t + (a + b) / 2) + o : ℝ)) =
    ∫ t in a..b, F t * Complex.exp (Complex.I * om * (s * t + o : ℝ)) := by
  have hsub := intervalIntegral.smul_integral_comp_mul_add (a := (-1 : ℝ)) (b := 1)
    (fun t => F t * Complex.exp (Complex.I * om * (s * t + o : ℝ))) ((b - a) / 2) ((a + b) / 2)
  rw [show (b - a) / 2 * -1 + (a + b) / 2 = a by ring, show (b - a) / 2 * 1 + (a + b) / 2 = b by ring] at hsub
  rw [← hsub, Complex.real_smul, ← intervalIntegral.integral_const_mul]
  refine intervalIntegral.integral_congr fun t _ => ?_
  ring

/-- `AdaptiveLevin` with `s = 1` returns the exact integral of a polynomial times `exp(i omega (r x + o))` over every interval with
different limits, in both orders, if every set of points has distinct elements, more than the degree. -/
theorem C210_levin {lstsq : Lstsq} (hl : Solves lstsq) {B : Basis} (hB : IsBasis B) {om r : ℝ} (hr : om * r ≠ 0) (o : ℝ)
    (pts : ℝ → ℝ → ℕ → List ℝ) (m : ℝ → ℝ → ℕ) (first : ℂ) (abseps : ℝ) {F : Polynomial ℝ}
    (hpts : ∀ u v k, k ∈ counts (m u v) → (pts u v k).Nodup ∧ F.degree < (pts u v k).length ∧ 0 < (pts u v k).length)
    {a b : ℝ} (hab : a ≠ b) :
    ∃ e n, adaptive (fun u v => qalLevin lstsq iteratedDeriv om (fun t => F.eval t) (fun t => r * t + o) (fun _ => r) B 1 (pts u v) (m u v)
      first abseps u v) om (fun _ => r) a b =
        .ok (∫ t in a..b, (F.eval t : ℝ) * Complex.exp (Complex.I * om * (r * t + o : ℝ)), e, n) := by
  refine C210_sum _ om _ hab (by fun_prop) fun u v huv => ?_
  unfold qalLevin
  refine refine_exact (fun k hk => ?_) (by simp [counts]) (fun k hk => (hpts u v k hk).2.2) _ _ _
  obtain ⟨hn, hd, -⟩ := hpts u v k hk
  have hh : (v - u) / 2 ≠ 0 := by
    have : v - u ≠ 0 := sub_ne_zero.2 huv.symm
    positivity
  have hr' : om * ((v - u) / 2 * r) ≠ 0 := by
    rw [mul_left_comm]
    exact mul_ne_zero hh hr
  have h := C209_linear hl hB hr' (r * ((u + v) / 2) + o) hn (comp_degree hd ((v - u) / 2) ((u + v) / 2))
  have e1 : (fun t => (v - u) / 2 * F.eval ((v - u) / 2 * t + (u + v) / 2)) =
      fun t => (Polynomial.C ((v - u) / 2) * F.comp (Polynomial.C ((v - u) / 2) * Polynomial.X + Polynomial.C ((u + v) / 2))).eval t := by
    funext t
    simp [Polynomial.eval_comp]
  have e2 : (fun t : ℝ => r * ((v - u) / 2 * t + (u + v) / 2) + o) = fun t => (v - u) / 2 * r * t + (r * ((u + v) / 2) + o) := by
    funext t; ring
  rw [e1, e2, h, ← scaled_integral (fun t => ((F.eval t : ℝ) : ℂ)) om r o u v]
  refine intervalIntegral.integral_congr fun t _ => ?_
  have e3 : (v - u) / 2 * r * t + (r * ((u + v) / 2) + o) = r * ((v - u) / 2 * t + (u + v) / 2) + o := by ring
  rw [e3]
  congr 1
  simp [Polynomial.eval_comp]

/-- `EvansWebster` returns the exact integral under the same conditions, with the points in `[-1, 1]`, for complex polynomials. -/
theorem C210_ew {lstsq : Lstsq} (hl : Solves lstsq) {B : Basis} (hB : IsBasis B) {om r : ℝ} (hr : om * r ≠ 0) (o : ℝ)
    (pts : ℝ → ℝ → ℕ → List ℝ) (m : ℝ → ℝ → ℕ) (first : ℂ) (abseps : ℝ) {F : Polynomial ℂ}
    (hpts : ∀ u v k, k ∈ counts (m u v) → (pts u v k).Nodup ∧ F.degree < (pts u v k).length ∧ 0 < (pts u v k).length ∧
      ∀ t ∈ pts u v k, t ∈ Set.Icc (-1 : ℝ) 1) {a b : ℝ} (hab : a ≠ b) :
    ∃ e n, adaptive (fun u v => qalEw lstsq om (fun t => F.eval (t : ℂ)) (fun t => r * t + o) (fun _ => r) B (pts u v) (m u v)
      first abseps u v) om (fun _ => r) a b =
        .ok (∫ t in a..b, F.eval (t : ℂ) * Complex.exp (Complex.I * om * (r * t + o : ℝ)), e, n) := by
  refine C210_sum _ om _ hab (by fun_prop) fun u v huv => ?_
  unfold qalEw
  refine refine_exact (fun k hk => ?_) (by simp [counts]) (fun k hk => (hpts u v k hk).2.2.1) _ _ _
  obtain ⟨hn, hd, -, hx⟩ := hpts u v k hk
  have hh : (v - u) / 2 ≠ 0 := by
    have : v - u ≠ 0 := sub_ne_zero.2 huv.symm
    positivity
  have hr' : om * ((v - u) / 2 * r) ≠ 0 := by
    rw [mul_left_comm]
    exact mul_ne_zero hh hr
  have h := (C204_linear hl hB hr' (r * ((u + v) / 2) + o) hn hx
    (comp_degree hd ((((v - u) / 2 : ℝ) : ℂ)) ((((u + v) / 2 : ℝ) : ℂ)))).2
  have e0 : ∀ t : ℝ, (Polynomial.C (((v - u) / 2 : ℝ) : ℂ) * F.comp (Polynomial.C (((v - u) / 2 : ℝ) : ℂ) * Polynomial.X +
      Polynomial.C (((u + v) / 2 : ℝ) : ℂ))).eval (t : ℂ) = (((v - u) / 2 : ℝ) : ℂ) * F.eval (((v - u) / 2 * t + (u + v) / 2 : ℝ) : ℂ) := by
    intro t
    simp [Polynomial.eval_comp]
  have e2 : (fun t : ℝ => r * ((v - u) / 2 * t + (u + v) / 2) + o) = fun t => (v - u) / 2 * r * t + (r * ((u + v) / 2) + o) := by
    funext t; ring
  unfold ewLevin
  rw [e2]
  simp only [e0] at h
  rw [← scaled_integral (fun t => F.eval (t : ℂ)) om r o u v]
  have e3 : ∀ t : ℝ, r * ((v - u) / 2 * t + (u + v) / 2) + o = (v - u) / 2 * r * t + (r * ((u + v) / 2) + o) := by intro t; ring
  simp only [e3]
  rw [← h, List.zipWith_comm]
  simp only [mul_comm]

end

end Wafo.Osc
