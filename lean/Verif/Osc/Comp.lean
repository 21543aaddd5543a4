import Verif.Osc.Lemmas

/-! Lemmas on the bisection of the interval. -/

set_option linter.unusedSectionVars false

namespace Wafo.Osc
open Finset

noncomputable section

/-- The parts of the interval after `k` bisections. -/
def ivals (a b : ℝ) : ℕ → List (ℝ × ℝ)
  | 0 => [(a, b)]
  | k + 1 => (ivals a b k).map (fun p => ((p.1 + a) / 2, (p.2 + a) / 2)) ++ (ivals a b k).map fun p => ((p.1 + b) / 2, (p.2 + b) / 2)

/-- The limits of the parts in one list. -/
def flat (l : List (ℝ × ℝ)) : List ℝ := l.flatMap fun p => [p.1, p.2]

theorem pairs_flat (l : List (ℝ × ℝ)) : pairs (flat l) = l := by
  induction l with
  | nil => rfl
  | cons p t ih => simpa [flat, pairs] using ih

theorem flat_map (l : List (ℝ × ℝ)) (h : ℝ → ℝ) : (flat l).map h = flat (l.map fun p => (h p.1, h p.2)) := by
  induction l with
  | nil => rfl
  | cons p t ih => simp only [flat, List.flatMap_cons, List.map_append, List.map_cons, List.map_nil] at ih ⊢; rw [ih]

theorem level_ab (a b : ℝ) (xn : List ℝ) (k : ℕ) : (level a b xn k).ab = flat (ivals a b k) := by
  induction k with
  | zero => rfl
  | succ k ih =>
    simp only [level, bisect, ih, ivals]
    rw [List.map_append, List.map_map, List.map_map, flat_map, flat_map]
    simp only [Function.comp, flat, List.flatMap_append]

theorem ivals_len (a b : ℝ) (k : ℕ) : ∀ p ∈ ivals a b k, (p.2 - p.1) / 2 = (b - a) / 2 / 2 ^ k := by
  induction k with
  | zero => intro p hp; simp only [ivals, List.mem_singleton] at hp; subst hp; simp
  | succ k ih =>
    intro p hp
    simp only [ivals, List.mem_append, List.mem_map] at hp
    rcases hp with ⟨q, hq, rfl⟩ | ⟨q, hq, rfl⟩
    · have := ih q hq
      simp only []
      rw [pow_succ, ← div_div, ← this]; ring
    · have := ih q hq
      simp only []
      rw [pow_succ, ← div_div, ← this]; ring

theorem level_hh (a b : ℝ) (xn : List ℝ) (k : ℕ) : (level a b xn k).hh = (b - a) / 2 / 2 ^ k := by
  induction k with
  | zero => simp [level, start]
  | succ k ih =>
    simp only [level, bisect, ih]
    rw [pow_succ, ← div_div]

/-- The nodes in one part. -/
def nodes (xn : List ℝ) (p : ℝ × ℝ) : List ℝ := xn.map fun u => (p.2 - p.1) / 2 * u + (p.1 + p.2) / 2

theorem level_x (a b : ℝ) (xn : List ℝ) (k : ℕ) : (level a b xn k).x = (ivals a b k).flatMap (nodes xn) := by
  induction k with
  | zero =>
    simp only [level, start, ivals, List.flatMap_cons, List.flatMap_nil, List.append_nil, nodes]
    refine List.map_congr_left fun u _ => ?_
    ring
  | succ k ih =>
    simp only [level, bisect, ih, ivals]
    rw [List.map_append, List.map_map, List.map_map, List.flatMap_append, List.map_flatMap, List.map_flatMap, List.flatMap_map, List.flatMap_map]
    congr 1
    · congr 1
      funext p
      simp only [nodes, List.map_map]
      refine List.map_congr_left fun u _ => ?_
      simp only [Function.comp]
      ring
    · congr 1
      funext p
      simp only [nodes, List.map_map]
      refine List.map_congr_left fun u _ => ?_
      simp only [Function.comp]
      ring

theorem zip_flatMap (l : List (ℝ × ℝ)) (W X : ℝ × ℝ → List ℂ) (h : ∀ p ∈ l, (W p).length = (X p).length) :
    (List.zipWith (· * ·) (l.flatMap W) (l.flatMap X)).sum = (l.map fun p => (List.zipWith (· * ·) (W p) (X p)).sum).sum := by
  induction l with
  | nil => rfl
  | cons p t ih =>
    simp only [List.flatMap_cons, List.map_cons, List.sum_cons]
    rw [List.zipWith_append (h p (by simp)), List.sum_append, ih fun q hq => h q (by simp [hq])]

/-- The rule on one part of the interval. -/
def piece (lstsq : Lstsq) (g dg : ℝ → ℝ) (om : ℝ) (B : Basis) (xn : List ℝ) (p : ℝ × ℝ) : List ℂ :=
  ewWeights lstsq om (fun t => g ((p.2 - p.1) / 2 * t + (p.1 + p.2) / 2))
    (fun t => (p.2 - p.1) / 2 * dg ((p.2 - p.1) / 2 * t + (p.1 + p.2) / 2)) xn B

theorem rule_eq {lstsq : Lstsq} {f : ℝ → ℂ} {g dg : ℝ → ℝ} {om : ℝ} {B : Basis} {xn : List ℝ} {a b : ℝ} {k : ℕ}
    (h : ∀ p ∈ ivals a b k, (piece lstsq g dg om B xn p).length = xn.length) :
    rule lstsq f g dg om B xn (level a b xn k) = ((ivals a b k).map fun p => (((p.2 - p.1) / 2 : ℝ) : ℂ) *
      (List.zipWith (· * ·) (piece lstsq g dg om B xn p) ((nodes xn p).map f)).sum).sum := by
  unfold rule oscWeights
  rw [level_ab, pairs_flat, level_x, List.map_flatMap]
  have e := zip_flatMap (ivals a b k) (piece lstsq g dg om B xn) (fun p => (nodes xn p).map f) (fun p hp => by
    rw [h p hp]; simp [nodes])
  have e0 : (List.zipWith (· * ·) ((ivals a b k).flatMap (piece lstsq g dg om B xn)) ((ivals a b k).flatMap fun p => (nodes xn p).map f)).sum =
      (List.zipWith (· * ·) ((ivals a b k).flatMap fun p =>
        let scale := (p.2 - p.1) / 2
        let offset := (p.1 + p.2) / 2
        ewWeights lstsq om (fun t => g (scale * t + offset)) (fun t => scale * dg (scale * t + offset)) xn B)
        ((ivals a b k).flatMap fun p => (nodes xn p).map f)).sum := rfl
  rw [← e0, e, ← List.sum_map_mul_left]
  congr 1
  refine List.map_congr_left fun p hp => ?_
  rw [level_hh, ← ivals_len a b k p hp]

/-- Adjacent parts from `u` to `v`. -/
def Chain : ℝ → List (ℝ × ℝ) → ℝ → Prop
  | u, [], v => u = v
  | u, p :: t, v => p.1 = u ∧ Chain p.2 t v

theorem Chain.append {u v w : ℝ} {l l' : List (ℝ × ℝ)} (h : Chain u l v) (h' : Chain v l' w) : Chain u (l ++ l') w := by
  induction l generalizing u with
  | nil => rw [show u = v from h]; exact h'
  | cons p t ih => exact ⟨h.1, ih h.2⟩

theorem Chain.map {u v : ℝ} {l : List (ℝ × ℝ)} (h : Chain u l v) (φ : ℝ → ℝ) : Chain (φ u) (l.map fun p => (φ p.1, φ p.2)) (φ v) := by
  induction l generalizing u with
  | nil => rw [show u = v from h]; rfl
  | cons p t ih => exact ⟨congrArg φ h.1, ih h.2⟩

theorem ivals_chain (a b : ℝ) (k : ℕ) : Chain a (ivals a b k) b := by
  induction k with
  | zero => exact ⟨rfl, rfl⟩
  | succ k ih =>
    have h1 := ih.map fun x => (x + a) / 2
    have h2 := ih.map fun x => (x + b) / 2
    rw [show (a + a) / 2 = a by ring] at h1
    rw [show (b + b) / 2 = b by ring, add_comm a b] at h2
    exact h1.append h2

theorem Chain.integral {u v : ℝ} {l : List (ℝ × ℝ)} (h : Chain u l v) {F : ℝ → ℂ}
    (hF : ∀ x y, IntervalIntegrable F MeasureTheory.volume x y) : (l.map fun p => ∫ t in p.1..p.2, F t).sum = ∫ t in u..v, F t := by
  induction l generalizing u with
  | nil => rw [show u = v from h]; simp
  | cons p t ih =>
    rw [List.map_cons, List.sum_cons, ih h.2, ← h.1, intervalIntegral.integral_add_adjacent_intervals (hF _ _) (hF _ _)]

/-- The rule is exact on one part if the function is in the span there. -/
theorem piece_exact {lstsq : Lstsq} (hl : Solves lstsq) {B : Basis} {P : ℕ → Polynomial ℝ} (hB : Graded B P) (om : ℝ) {g dg : ℝ → ℝ}
    (hg : ∀ t, HasDerivAt g (dg t) t) (hdg : Continuous dg) {xn : List ℝ} (hx : ∀ t ∈ xn, t ∈ Set.Icc (-1 : ℝ) 1) {f : ℝ → ℂ} (p : ℝ × ℝ)
    (hA : Nonsingular xn.length (ewMatrix om (fun t => (p.2 - p.1) / 2 * dg ((p.2 - p.1) / 2 * t + (p.1 + p.2) / 2)) xn B)) {c : ℕ → ℂ}
    (hf : ∀ t ∈ Set.Icc (-1 : ℝ) 1, f ((p.2 - p.1) / 2 * t + (p.1 + p.2) / 2) = ∑ k ∈ range xn.length, c k *
      image om (fun t => (p.2 - p.1) / 2 * dg ((p.2 - p.1) / 2 * t + (p.1 + p.2) / 2)) B k t) :
    (piece lstsq g dg om B xn p).length = xn.length ∧ (((p.2 - p.1) / 2 : ℝ) : ℂ) *
      (List.zipWith (· * ·) (piece lstsq g dg om B xn p) ((nodes xn p).map f)).sum = ∫ t in p.1..p.2, f t * phase om (g t) := by
  have hlin : ∀ t : ℝ, HasDerivAt (fun t : ℝ => (p.2 - p.1) / 2 * t + (p.1 + p.2) / 2) ((p.2 - p.1) / 2) t := by
    intro t
    simpa using ((hasDerivAt_id t).const_mul ((p.2 - p.1) / 2)).add_const ((p.1 + p.2) / 2)
  have h := ew_exact hl hB om (g := fun t => g ((p.2 - p.1) / 2 * t + (p.1 + p.2) / 2))
    (dg := fun t => (p.2 - p.1) / 2 * dg ((p.2 - p.1) / 2 * t + (p.1 + p.2) / 2))
    (fun t _ => by
      have := (hg ((p.2 - p.1) / 2 * t + (p.1 + p.2) / 2)).comp t (hlin t)
      rw [mul_comm] at this
      exact this)
    ((continuous_const.mul (hdg.comp ((continuous_const.mul continuous_id).add continuous_const))).continuousOn) hx hA
    (f := fun t => f ((p.2 - p.1) / 2 * t + (p.1 + p.2) / 2)) hf
  refine ⟨h.1, ?_⟩
  have e : (nodes xn p).map f = xn.map fun t => f ((p.2 - p.1) / 2 * t + (p.1 + p.2) / 2) := by
    simp [nodes, Function.comp]
  rw [e, piece, h.2]
  have hsub := intervalIntegral.smul_integral_comp_mul_add (a := (-1 : ℝ)) (b := 1) (fun t => f t * phase om (g t)) ((p.2 - p.1) / 2) ((p.1 + p.2) / 2)
  rw [show (p.2 - p.1) / 2 * -1 + (p.1 + p.2) / 2 = p.1 by ring, show (p.2 - p.1) / 2 * 1 + (p.1 + p.2) / 2 = p.2 by ring] at hsub
  rw [← hsub, Complex.real_smul]

end

end Wafo.Osc
