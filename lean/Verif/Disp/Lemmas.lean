import Verif.Disp.Model
import Mathlib.Tactic.Linarith
import Mathlib.Tactic.FieldSimp
import Mathlib.Tactic.LinearCombination

/-!
Lemmas about Newton's iteration for the wave number.
-/

set_option linter.unusedSectionVars false

namespace Wafo.Disp

theorem tanh_pos {x : ℝ} (hx : 0 < x) : 0 < Real.tanh x := by
  rw [Real.tanh_eq_sinh_div_cosh]
  exact div_pos (Real.sinh_pos_iff.2 hx) (Real.cosh_pos x)

theorem two_mul_le_cosh_sq (x : ℝ) (hx : 0 ≤ x) : 2 * x ≤ Real.cosh x ^ 2 := by
  have h1 : x ≤ Real.sinh x := Real.self_le_sinh_iff.2 hx
  have h2 := Real.cosh_sq x
  nlinarith [sq_nonneg (x - 1)]

/-- The part of the slope that is dropped from 350 on. -/
noncomputable def tail (x : ℝ) : ℝ := if |x| < 350 then x / Real.cosh x ^ 2 else 0

theorem slope_eq (x : ℝ) : slope x = Real.tanh x + tail x := rfl

theorem tail_nonneg {x : ℝ} (hx : 0 ≤ x) : 0 ≤ tail x := by
  unfold tail
  split
  · exact div_nonneg hx (by positivity)
  · exact le_refl _

theorem tail_le {x : ℝ} (hx : 0 ≤ x) : tail x ≤ 1 / 2 := by
  unfold tail
  split
  · rw [div_le_iff₀ (by have := Real.cosh_pos x; positivity)]
    have := two_mul_le_cosh_sq x hx
    linarith
  · norm_num

theorem tail_neg (x : ℝ) : tail (-x) = -tail x := by
  unfold tail
  rw [abs_neg, Real.cosh_neg]
  split
  · ring
  · ring

theorem slope_neg (x : ℝ) : slope (-x) = -slope x := by
  rw [slope_eq, slope_eq, tail_neg, Real.tanh_neg]; ring

theorem slope_pos {x : ℝ} (hx : 0 < x) : 0 < slope x := by
  have := tanh_pos hx
  have := tail_nonneg hx.le
  rw [slope_eq]; linarith

theorem slope_lt {x : ℝ} (hx : 0 < x) : slope x < 3 / 2 := by
  have := Real.tanh_lt_one x
  have := tail_le hx.le
  rw [slope_eq]; linarith

/-- A Newton step from a positive wave number. -/
theorem newton_pos (g : ℝ) (hg : 0 < g) (p : Pt) (h : ℝ) (hh : 0 < h) (hp : p.h = some h) (hw : p.w ≠ 0) (hk : 0 < p.k) :
    ∃ p', newton g p = some p' ∧ p'.w = p.w ∧ p'.h = p.h ∧ 0 < p'.k ∧ p'.k = p.k - p'.hn ∧
      p'.hn * slope (p.k * h) = p.k * Real.tanh (p.k * h) - p.w ^ 2 / g := by
  have hkh : 0 < p.k * h := mul_pos hk hh
  have hs := slope_pos hkh
  have hc : 0 < p.w ^ 2 / g := div_pos (by positivity) hg
  have hnew : 0 < p.k - (p.k * Real.tanh (p.k * h) - p.w ^ 2 / g) / slope (p.k * h) := by
    have : p.k - (p.k * Real.tanh (p.k * h) - p.w ^ 2 / g) / slope (p.k * h) =
        (p.k * tail (p.k * h) + p.w ^ 2 / g) / slope (p.k * h) := by
      rw [eq_div_iff hs.ne', sub_mul, div_mul_cancel₀ _ hs.ne', slope_eq]
      ring
    rw [this]
    exact div_pos (by have := mul_nonneg hk.le (tail_nonneg hkh.le); linarith) hs
  refine ⟨⟨p.w, p.h, p.k - (p.k * Real.tanh (p.k * h) - p.w ^ 2 / g) / slope (p.k * h),
    (p.k * Real.tanh (p.k * h) - p.w ^ 2 / g) / slope (p.k * h)⟩, ?_, rfl, rfl, hnew, rfl, ?_⟩
  · unfold newton
    rw [hp]
    simp only
    rw [if_neg hs.ne', if_neg (by rw [abs_eq_zero]; exact hnew.ne')]
  · exact div_mul_cancel₀ _ hs.ne'

/-- The point with the opposite frequency. -/
def mirror (p : Pt) : Pt := ⟨-p.w, p.h, -p.k, -p.hn⟩

theorem mirror_mirror (p : Pt) : mirror (mirror p) = p := by unfold mirror; simp

theorem newton_mirror (g : ℝ) (p : Pt) : newton g (mirror p) = (newton g p).map mirror := by
  obtain ⟨w, d, k, hn0⟩ := p
  cases d with
  | none => rfl
  | some h =>
    have e1 : slope (-k * h) = -slope (k * h) := by rw [neg_mul, slope_neg]
    have e2 : Real.tanh (-k * h) = -Real.tanh (k * h) := by rw [neg_mul, Real.tanh_neg]
    have hn : (-k * -Real.tanh (k * h) - (-w) ^ 2 / g) / -slope (k * h) = -((k * Real.tanh (k * h) - w ^ 2 / g) / slope (k * h)) := by
      rw [div_neg]; ring
    have hk : -k - -((k * Real.tanh (k * h) - w ^ 2 / g) / slope (k * h)) = -(k - (k * Real.tanh (k * h) - w ^ 2 / g) / slope (k * h)) := by
      ring
    show newton g ⟨-w, some h, -k, -hn0⟩ = _
    simp only [newton, e1, e2, hn, hk, abs_neg, neg_eq_zero]
    by_cases h0 : slope (k * h) = 0
    · rw [if_pos h0, if_pos h0]; rfl
    · rw [if_neg h0, if_neg h0]
      by_cases h1 : |k - (k * Real.tanh (k * h) - w ^ 2 / g) / slope (k * h)| = 0
      · rw [if_pos h1, if_pos h1]
        simp only [Option.map_some, mirror, Option.some.injEq, Pt.mk.injEq, true_and]
        constructor <;> ring
      · rw [if_neg h1, if_neg h1]
        simp only [Option.map_some, mirror]

theorem active_mirror (rtol atol : ℝ) (p : Pt) : active rtol atol (mirror p) = active rtol atol p := by
  unfold active mirror
  simp only [abs_neg]

/-- The iteration of one point. -/
noncomputable def loop1 (g rtol atol : ℝ) : ℕ → Pt × Bool → Option (Pt × Bool)
  | 0, x => some x
  | n + 1, x =>
    if x.2 then
      match newton g x.1 with
      | none => none
      | some p => loop1 g rtol atol n (p, active rtol atol p)
    else some x

theorem loop1_false (g rtol atol : ℝ) (n : ℕ) (p : Pt) : loop1 g rtol atol n (p, false) = some (p, false) := by
  cases n <;> simp [loop1]

/-- A point that is not iterated stays so. -/
def Settled (rtol atol : ℝ) (x : Pt × Bool) : Prop := x.2 = false → active rtol atol x.1 = false

theorem mapM_bind_map {β γ δ : Type} (f : β → Option γ) (k : γ → Option δ) : ∀ l : List β,
    l.mapM (fun x => (f x).bind k) = (l.mapM f).bind (fun l' => l'.mapM k)
  | [] => rfl
  | a :: l => by
    rw [List.mapM_cons, List.mapM_cons, mapM_bind_map f k l]
    cases f a with
    | none => rfl
    | some b =>
      cases hl : l.mapM f with
      | none =>
        simp only [Option.bind_some, Option.bind_none, Option.bind_eq_bind, Option.pure_def]
        cases k b <;> rfl
      | some l' =>
        simp only [Option.bind_some, Option.bind_eq_bind, Option.pure_def, List.mapM_cons]

theorem mapM_some_id {β : Type} : ∀ l : List β, l.mapM (fun x => some x) = some l
  | [] => rfl
  | a :: l => by rw [List.mapM_cons, mapM_some_id l]; rfl

theorem mapM_congr' {β γ : Type} (f f' : β → Option γ) : ∀ l : List β, (∀ x ∈ l, f x = f' x) → l.mapM f = l.mapM f'
  | [], _ => rfl
  | a :: l, h => by
    rw [List.mapM_cons, List.mapM_cons, h a (by simp), mapM_congr' f f' l (fun x hx => h x (List.mem_cons_of_mem _ hx))]

theorem mapM_map' {β γ δ : Type} (f : γ → Option δ) (e : β → γ) : ∀ l : List β, (l.map e).mapM f = l.mapM (fun x => f (e x))
  | [] => rfl
  | a :: l => by rw [List.map_cons, List.mapM_cons, List.mapM_cons, mapM_map' f e l]

/-- The vectorized loop treats every point on its own. -/
theorem loop_fst (g rtol atol : ℝ) : ∀ (n : ℕ) (l : List (Pt × Bool)), (∀ x ∈ l, Settled rtol atol x) →
    (loop g rtol atol n l).map Prod.fst = l.mapM (loop1 g rtol atol n)
  | 0, l, _ => by
    simp only [loop, Option.map_some]
    rw [mapM_congr' _ (fun x => some x) l (fun x _ => by simp [loop1]), mapM_some_id]
  | n + 1, l, hs => by
    simp only [loop]
    by_cases ha : l.any (fun x => x.2) = true
    · rw [if_pos ha]
      have key : l.mapM (loop1 g rtol atol (n + 1)) =
          l.mapM (fun x => (if x.2 then newton g x.1 else some x.1).bind (fun p => loop1 g rtol atol n (p, active rtol atol p))) := by
        apply mapM_congr'
        intro x hx
        obtain ⟨p, b⟩ := x
        cases b with
        | true =>
          simp only [loop1, if_true]
          cases newton g p <;> rfl
        | false =>
          have := hs _ hx rfl
          simp only at this
          simp only [Bool.false_eq_true, if_false, Option.bind_some, this, loop1_false]
      rw [key, mapM_bind_map]
      cases hm : l.mapM (fun x => if x.2 then newton g x.1 else some x.1) with
      | none => rfl
      | some l' =>
        simp only [Option.bind_some, Option.map_map]
        have ih := loop_fst g rtol atol n (l'.map (fun p => (p, active rtol atol p))) (by
          intro x hx
          obtain ⟨p, -, rfl⟩ := List.mem_map.1 hx
          exact fun h => h)
        rw [mapM_map'] at ih
        rw [← ih]
        rfl
    · rw [if_neg ha]
      simp only [Option.map_some]
      rw [mapM_congr' _ (fun x => some x) l (fun x hx => ?_), mapM_some_id]
      obtain ⟨p, b⟩ := x
      have hb : b = false := by
        by_contra hb
        exact ha (List.any_eq_true.2 ⟨_, hx, by simpa using hb⟩)
      rw [hb, loop1_false]

/-- Without warning no point is left in `ix`. -/
theorem loop_done (g rtol atol : ℝ) : ∀ (n : ℕ) (l : List (Pt × Bool)) (r : List (Pt × Bool) × ℕ), loop g rtol atol n l = some r →
    r.2 ≤ n ∧ (r.2 < n → ∀ x ∈ r.1, x.2 = false)
  | 0, l, r, h => by
    simp only [loop, Option.some.injEq] at h
    subst h
    exact ⟨le_refl _, fun h => absurd h (lt_irrefl _)⟩
  | n + 1, l, r, h => by
    simp only [loop] at h
    by_cases ha : l.any (fun x => x.2) = true
    · rw [if_pos ha] at h
      cases hm : l.mapM (fun x => if x.2 then newton g x.1 else some x.1) with
      | none => rw [hm] at h; simp at h
      | some l' =>
        rw [hm] at h
        simp only at h
        cases hl : loop g rtol atol n (l'.map (fun p => (p, active rtol atol p))) with
        | none => rw [hl] at h; simp at h
        | some r' =>
          rw [hl] at h
          simp only [Option.map_some, Option.some.injEq] at h
          obtain ⟨h1, h2⟩ := loop_done g rtol atol n _ r' hl
          rw [← h]
          exact ⟨by simpa using h1, fun hlt => h2 (by simpa using hlt)⟩
    · rw [if_neg ha] at h
      simp only [Option.some.injEq] at h
      subst h
      refine ⟨Nat.zero_le _, fun _ x hx => ?_⟩
      by_contra hb
      exact ha (List.any_eq_true.2 ⟨_, hx, by simpa using hb⟩)

theorem loop1_mirror (g rtol atol : ℝ) : ∀ (n : ℕ) (x : Pt × Bool),
    loop1 g rtol atol n (mirror x.1, x.2) = (loop1 g rtol atol n x).map (fun y => (mirror y.1, y.2))
  | 0, x => by simp [loop1]
  | n + 1, (p, b) => by
    cases b with
    | false => simp [loop1]
    | true =>
      simp only [loop1, if_true, newton_mirror]
      cases hp : newton g p with
      | none => rfl
      | some p' =>
        simp only [Option.map_some]
        rw [active_mirror]
        exact loop1_mirror g rtol atol n (p', active rtol atol p')

/-- Where the iteration from a positive wave number ends. -/
theorem loop1_pos (g rtol atol : ℝ) (hg : 0 < g) (h : ℝ) (hh : 0 < h) : ∀ (n : ℕ) (x : Pt × Bool),
    x.1.h = some h → x.1.w ≠ 0 → 0 < x.1.k →
    ∃ y, loop1 g rtol atol n x = some y ∧ y.1.w = x.1.w ∧ y.1.h = x.1.h ∧ 0 < y.1.k ∧
      (y = x ∨ (y.2 = active rtol atol y.1 ∧ ∃ k', 0 < k' ∧ y.1.k = k' - y.1.hn ∧
        y.1.hn * slope (k' * h) = k' * Real.tanh (k' * h) - x.1.w ^ 2 / g))
  | 0, x, _, _, h3 => ⟨x, by simp [loop1], rfl, rfl, h3, Or.inl rfl⟩
  | n + 1, (p, b), h1, h2, h3 => by
    cases b with
    | false => exact ⟨(p, false), by simp [loop1], rfl, rfl, h3, Or.inl rfl⟩
    | true =>
      obtain ⟨p', e1, e2, e3, e4, e5, e6⟩ := newton_pos g hg p h hh h1 h2 h3
      simp only [loop1, if_true, e1]
      obtain ⟨y, f1, f2, f3, f4, f5⟩ := loop1_pos g rtol atol hg h hh n (p', active rtol atol p') (by simpa [e3] using h1)
        (by simpa [e2] using h2) e4
      refine ⟨y, f1, by rw [f2]; exact e2, by rw [f3]; exact e3, f4, Or.inr ?_⟩
      rcases f5 with rfl | ⟨g1, k', g2, g3, g4⟩
      · exact ⟨rfl, p.k, h3, e5, e6⟩
      · exact ⟨g1, k', g2, g3, by simpa [e2] using g4⟩

end Wafo.Disp
