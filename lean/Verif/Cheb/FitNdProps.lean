import Verif.Cheb.FitNd
import Mathlib.Tactic.Linarith
import Mathlib.Tactic.FieldSimp

/-!
Properties of `chebfitnd`: C88.
-/

namespace Wafo.ChebNd

open Finset

/-- A solver that is right for the given system. -/
def Right {n : ℕ} (solve : (Fin n → Fin n → ℝ) → (Fin n → ℝ) → Fin n → ℝ) (A : Fin n → Fin n → ℝ) (b : Fin n → ℝ) : Prop :=
  ∀ i, ∑ j, A i j * solve A b j = b i

/-- **C88 (refuted).**  Whenever the number of samples differs from the number of coefficients the fit raises. -/
theorem C88_refuted {m n : ℕ} (hmn : m ≠ n) (solve : (Fin n → Fin n → ℝ) → (Fin n → ℝ) → Fin n → ℝ) (V : Fin m → Fin n → ℝ) (z : Fin m → ℝ) :
    chebfitnd solve V z = .error .valueError := by
  unfold chebfitnd
  rw [dif_neg hmn, ite_self]

/-- **C88 (square systems).**  With as many samples as coefficients and no zero datum the fitted series takes the column norms of
the Vandermonde matrix at the sample points, whatever the data are. -/
theorem C88_square {n : ℕ} (solve : (Fin n → Fin n → ℝ) → (Fin n → ℝ) → Fin n → ℝ) (V : Fin n → Fin n → ℝ) (z : Fin n → ℝ)
    (hz : ∀ j, z j ≠ 0) (hs : Right solve (fun i j => V i j / z j) (scale V)) :
    ∃ c, chebfitnd solve V z = .ok c ∧ ∀ i, ∑ j, V i j * c j = scale V i := by
  refine ⟨fun j => solve (fun i j => V i j / z j) (scale V) j / z j, ?_, fun i => ?_⟩
  · unfold chebfitnd
    rw [if_neg (by simp [broadcasts]), dif_pos rfl]
    rfl
  · rw [← hs i]
    apply Finset.sum_congr rfl
    intro j _
    have := hz j
    field_simp

/-- **C88 (wrong coefficients).**  A constant fitted to the single datum 2 is 1. -/
theorem C88_constant_refuted (solve : (Fin 1 → Fin 1 → ℝ) → (Fin 1 → ℝ) → Fin 1 → ℝ) (hs : ∀ A b, A 0 0 ≠ 0 → Right solve A b) :
    ∃ c, chebfitnd solve (fun _ _ : Fin 1 => 1) (fun _ => 2) = .ok c ∧ c 0 = 1 := by
  obtain ⟨c, h1, h2⟩ := C88_square solve (fun _ _ : Fin 1 => (1 : ℝ)) (fun _ => 2) (fun _ => by norm_num) (hs _ _ (by norm_num))
  refine ⟨c, h1, ?_⟩
  have h3 : scale (fun _ _ : Fin 1 => (1 : ℝ)) 0 = 1 := by unfold scale; simp
  have h := h2 0
  rw [h3] at h
  simpa using h

/-- Such a solver exists. -/
example : ∃ solve : (Fin 1 → Fin 1 → ℝ) → (Fin 1 → ℝ) → Fin 1 → ℝ, ∀ A b, A 0 0 ≠ 0 → Right solve A b :=
  ⟨fun A b _ => b 0 / A 0 0, fun A b h i => by
    rw [Fin.fin_one_eq_zero i]
    simp only [Finset.univ_unique, Fin.default_eq_zero, Finset.sum_singleton]
    field_simp⟩

end Wafo.ChebNd
