import Verif.Disp.Lemmas
import Mathlib.Topology.Order.IntermediateValue

/-!
Properties of the dispersion relation: C82, C83 and C111.
-/

set_option linter.unusedSectionVars false

namespace Wafo.Disp

/-! ### Deep water -/

theorem norm_eq (x y : ℝ) : ‖(⟨x, y⟩ : ℂ)‖ = Real.sqrt (x ^ 2 + y ^ 2) := by
  rw [Complex.norm_def, Complex.normSq_mk]; congr 1; ring

theorem freq_deep (k1 k2 g : ℝ) :
    KArg.freq ⟨k1, k2, none, g, 0, 0⟩ = Real.sqrt (g * Real.sqrt (k1 ^ 2 + k2 ^ 2)) := by
  unfold KArg.freq
  simp only [tanhDepth, mul_zero, mul_one, zero_add, add_zero]
  split
  · rfl
  · rename_i h
    have : Real.sqrt (k1 ^ 2 + k2 ^ 2) = 0 := le_antisymm (not_lt.1 h) (Real.sqrt_nonneg _)
    rw [this, mul_zero, Real.sqrt_zero]

theorem deepK_sqrt (g K : ℝ) (hg : 0 < g) (hK : 0 ≤ K) : deepK g (Real.sqrt (g * K)) = K := by
  unfold deepK sgn
  rw [if_neg (not_lt.2 (Real.sqrt_nonneg _)), Real.sq_sqrt (by positivity)]
  split
  · rename_i h
    have : g * K = 0 := (Real.sqrt_eq_zero (by positivity)).1 h
    have : K = 0 := by rcases mul_eq_zero.1 this with h | h <;> [exact absurd h hg.ne'; exact h]
    rw [this]; ring
  · field_simp

/-- **C82 (round trip).**  In deep water without current `w2k(*k2w(k1, k2))` returns the wave numbers, for any arrays. -/
theorem C82_round_trip (l : List (ℝ × ℝ)) (hl : l ≠ []) (g : ℝ) (hg : 0 < g) (n : ℕ) (rtol atol : ℝ) :
    ∃ w th, k2w (l.map (fun k => ⟨k.1, k.2, none, g, 0, 0⟩)) = .pair w th false ∧ w.length = l.length ∧ th.length = l.length ∧
      w2k (List.zipWith (fun a b => ⟨a, b, none⟩) w th) [g] n rtol atol = .ok (.pair (l.map Prod.fst) (l.map Prod.snd) false) := by
  refine ⟨l.map (fun k => Real.sqrt (g * Real.sqrt (k.1 ^ 2 + k.2 ^ 2))), l.map (fun k => arctan2 k.2 k.1), ?_, by simp, by simp, ?_⟩
  · unfold k2w
    rw [if_neg (by simpa using hl)]
    simp only [List.map_map, List.all_map, Function.comp_def, freq_deep _ _ g, Real.sqrt_nonneg, decide_true]
    simp
  · have hz : List.zipWith (fun a b => (⟨a, b, none⟩ : WArg)) (l.map (fun k => Real.sqrt (g * Real.sqrt (k.1 ^ 2 + k.2 ^ 2))))
        (l.map (fun k => arctan2 k.2 k.1)) =
        l.map (fun k => ⟨Real.sqrt (g * Real.sqrt (k.1 ^ 2 + k.2 ^ 2)), arctan2 k.2 k.1, none⟩) := by
      rw [List.zipWith_map, List.zipWith_self]
    rw [hz]
    unfold w2k
    rw [if_neg (by simpa using hl)]
    simp only [List.head?_cons, List.getLast?_singleton]
    rw [if_pos (by simp [isDeep])]
    simp only [List.map_map, Function.comp_def, deepK_sqrt g _ hg (Real.sqrt_nonneg _)]
    congr 2
    · apply List.map_congr_left
      intro k _
      rw [← norm_eq]
      exact Complex.norm_mul_cos_arg _
    · apply List.map_congr_left
      intro k _
      rw [mul_div_assoc, div_self hg.ne', mul_one, ← norm_eq]
      exact Complex.norm_mul_sin_arg _

/-- **C82 (no negative frequency).**  Whatever the current, `k2w` returns non-negative frequencies; it warns when the current
would make one of them negative. -/
theorem C82_nonneg (l : List KArg) (hl : l ≠ []) :
    ∃ w th warned, k2w l = .pair w th warned ∧ w.length = l.length ∧ (∀ x ∈ w, 0 ≤ x) ∧
      (warned = false ↔ ∀ a ∈ l, 0 ≤ a.freq) := by
  refine ⟨_, _, _, by unfold k2w; rw [if_neg (by simpa using hl)], by simp, ?_, by simp⟩
  intro x hx
  obtain ⟨a, -, rfl⟩ := List.mem_map.1 hx
  split
  · assumption
  · exact le_refl _

/-- **C82 (the relation).**  Without current the frequency satisfies `w² = g·K·tanh(K·h)`, in deep water `w² = g·K`, where
`K = sqrt(k1² + k2²)`. -/
theorem C82_relation (k1 k2 g : ℝ) (hg : 0 < g) :
    (KArg.freq ⟨k1, k2, none, g, 0, 0⟩ ^ 2 = g * Real.sqrt (k1 ^ 2 + k2 ^ 2)) ∧
    ∀ h : ℝ, 0 < h → 0 ≤ KArg.freq ⟨k1, k2, some h, g, 0, 0⟩ ∧ KArg.freq ⟨k1, k2, some h, g, 0, 0⟩ ^ 2 =
      g * Real.sqrt (k1 ^ 2 + k2 ^ 2) * Real.tanh (Real.sqrt (k1 ^ 2 + k2 ^ 2) * h) := by
  have hK := Real.sqrt_nonneg (k1 ^ 2 + k2 ^ 2)
  constructor
  · rw [freq_deep k1 k2 g, Real.sq_sqrt (by positivity)]
  · intro h hh
    unfold KArg.freq
    simp only [tanhDepth, mul_zero, zero_add, add_zero]
    split
    · rename_i hp
      have := tanh_pos (mul_pos hp hh)
      exact ⟨Real.sqrt_nonneg _, Real.sq_sqrt (by positivity)⟩
    · rename_i hp
      have : Real.sqrt (k1 ^ 2 + k2 ^ 2) = 0 := le_antisymm (not_lt.1 hp) hK
      rw [this]
      simp

/-- **C82 (current).**  A current changes every frequency by `k1*u1 + k2*u2`; where that makes it negative zero is returned.  The directions do not change. -/
theorem C82_current (l : List KArg) (hl : l ≠ []) (h0 : ∀ a ∈ l, a.k1 ≠ 0 ∨ a.k2 ≠ 0) :
    ∃ w th warned w' warned', k2w l = .pair w th warned ∧ k2w (l.map fun a => { a with u1 := 0, u2 := 0 }) = .pair w' th warned' ∧ w'.length = l.length ∧
      w = List.zipWith (fun a x => max 0 (x + (a.k1 * a.u1 + a.k2 * a.u2))) l w' := by
  have hl' : ¬ (l.map fun a : KArg => { a with u1 := 0, u2 := 0 }).length = 0 := by simpa using hl
  refine ⟨_, _, _, _, _, by unfold k2w; rw [if_neg (by simpa using hl)], by unfold k2w; rw [if_neg hl', List.map_map, List.map_map]; rfl, by simp, ?_⟩
  rw [List.zipWith_map_right, List.zipWith_self]
  refine List.map_congr_left fun a ha => ?_
  have hp : 0 < a.k1 ^ 2 + a.k2 ^ 2 := by
    rcases h0 a ha with h | h
    · have := pow_pos (abs_pos.2 h) 2
      rw [sq_abs] at this
      nlinarith [sq_nonneg a.k2]
    · have := pow_pos (abs_pos.2 h) 2
      rw [sq_abs] at this
      nlinarith [sq_nonneg a.k1]
  have hk := Real.sqrt_pos.2 hp
  have hs := Real.sqrt_nonneg (a.g * Real.sqrt (a.k1 ^ 2 + a.k2 ^ 2) * tanhDepth (Real.sqrt (a.k1 ^ 2 + a.k2 ^ 2)) a.h)
  simp only [KArg.freq, if_pos hk, Function.comp, mul_zero, zero_add, add_zero, if_pos hs]
  rw [add_comm]
  split_ifs with h
  · rw [max_eq_right h]
  · rw [max_eq_left (not_le.1 h).le]

/-- **C82 (converse).**  From frequency and direction to the wave number and back: the frequency is recovered up to its sign, and
the direction of a positive frequency too. -/
theorem C82_converse (w th g : ℝ) (hg : 0 < g) (hth : th ∈ Set.Ioc (-Real.pi) Real.pi) (n : ℕ) (rtol atol : ℝ) :
    ∃ k1 k2, w2k [⟨w, th, none⟩] [g] n rtol atol = .ok (.pair [k1] [k2] false) ∧
      (∃ th', k2w [⟨k1, k2, none, g, 0, 0⟩] = .pair [|w|] [th'] false ∧ (0 < w → th' = th)) := by
  have hsq : deepK g w ^ 2 = (w ^ 2 / g) ^ 2 := by
    unfold deepK sgn
    split
    · ring
    · split
      · rename_i h; rw [h]; ring
      · ring
  have hfreq : KArg.freq ⟨deepK g w * Real.cos th, deepK g w * Real.sin th, none, g, 0, 0⟩ = |w| := by
    rw [freq_deep _ _ g]
    have h1 : (deepK g w * Real.cos th) ^ 2 + (deepK g w * Real.sin th) ^ 2 = (w ^ 2 / g) ^ 2 := by
      have := Real.cos_sq_add_sin_sq th
      rw [← hsq]
      linear_combination deepK g w ^ 2 * this
    rw [h1, Real.sqrt_sq (by positivity), show g * (w ^ 2 / g) = w ^ 2 by field_simp, Real.sqrt_sq_eq_abs]
  refine ⟨deepK g w * Real.cos th, deepK g w * Real.sin th, ?_, arctan2 (deepK g w * Real.sin th) (deepK g w * Real.cos th), ?_, ?_⟩
  · unfold w2k
    simp [isDeep, mul_div_assoc, div_self hg.ne']
  · unfold k2w
    simp [hfreq]
  · intro hw
    have hk : 0 < deepK g w := by
      unfold deepK sgn
      rw [if_neg (not_lt.2 hw.le), if_neg hw.ne']
      positivity
    unfold arctan2
    refine Eq.trans ?_ (Complex.arg_mul_cos_add_sin_mul_I hk hth)
    congr 1
    apply Complex.ext <;> simp [Complex.cos_ofReal_re, Complex.sin_ofReal_re]

/-- Empty input: both functions return one array instead of a pair, so that `w, theta = k2w(k)` raises. -/
example (g : List ℝ) (n : ℕ) (rtol atol : ℝ) : k2w [] = .single ∧ w2k [] g n rtol atol = .ok .single := ⟨rfl, rfl⟩

/-! ### Finite depth -/

/-- The dispersion relation for positive wave numbers. -/
def Solves (g h w k : ℝ) : Prop := w ^ 2 = g * k * Real.tanh (k * h)

/-- **C83 (fixed points).**  A wave number is left unchanged by a Newton step exactly when it solves the dispersion relation. -/
theorem C83_fixed_point (g h : ℝ) (hg : 0 < g) (hh : 0 < h) (p : Pt) (hp : p.h = some h) (hk : p.k ≠ 0) :
    (∃ p', newton g p = some p' ∧ p'.k = p.k) ↔ Solves g h p.w p.k := by
  have hs : slope (p.k * h) ≠ 0 := by
    rcases lt_or_gt_of_ne hk with h1 | h1
    · have := slope_pos (mul_pos (neg_pos.2 h1) hh)
      rw [neg_mul, slope_neg] at this
      linarith
    · exact (slope_pos (mul_pos h1 hh)).ne'
  have hiff : p.k * Real.tanh (p.k * h) - p.w ^ 2 / g = 0 ↔ Solves g h p.w p.k := by
    unfold Solves
    rw [sub_eq_zero, eq_div_iff hg.ne']
    constructor <;> intro e <;> linarith
  unfold newton
  rw [hp]
  simp only
  rw [if_neg hs]
  constructor
  · rintro ⟨p', h1, h2⟩
    split at h1
    · simp only [Option.some.injEq] at h1
      rw [← h1] at h2
      simp only at h2
      exact absurd (by linarith) hk
    · simp only [Option.some.injEq] at h1
      rw [← h1] at h2
      simp only at h2
      have : (p.k * Real.tanh (p.k * h) - p.w ^ 2 / g) / slope (p.k * h) = 0 := by linarith
      rcases div_eq_zero_iff.1 this with h | h
      · exact hiff.1 h
      · exact absurd h hs
  · intro h
    have h0 := hiff.2 h
    rw [h0, zero_div, sub_zero, if_neg (by simpa using hk)]
    exact ⟨_, rfl, rfl⟩

theorem mul_tanh_strictMono (h : ℝ) (hh : 0 < h) {a b : ℝ} (ha : 0 < a) (hab : a < b) : a * Real.tanh (a * h) < b * Real.tanh (b * h) := by
  have h1 : Real.tanh (a * h) ≤ Real.tanh (b * h) := by
    rw [Real.tanh_eq_sinh_div_cosh, Real.tanh_eq_sinh_div_cosh, div_le_div_iff₀ (Real.cosh_pos _) (Real.cosh_pos _)]
    have h2 : 0 ≤ Real.sinh (b * h - a * h) := Real.sinh_nonneg_iff.2 (by nlinarith)
    rw [Real.sinh_sub] at h2
    linarith
  have h3 := tanh_pos (mul_pos ha hh)
  calc a * Real.tanh (a * h) < b * Real.tanh (a * h) := by exact mul_lt_mul_of_pos_right hab h3
    _ ≤ b * Real.tanh (b * h) := by exact mul_le_mul_of_nonneg_left h1 (by linarith)

/-- **C83 (one solution).**  For a non-zero frequency there is exactly one positive wave number that solves the dispersion
relation, so that Newton's step has exactly one positive fixed point; it is larger than the starting value `w²/g`. -/
theorem C83_unique (g h w : ℝ) (hg : 0 < g) (hh : 0 < h) (hw : w ≠ 0) :
    ∃ k, 0 < k ∧ Solves g h w k ∧ w ^ 2 / g < k ∧ ∀ k', 0 < k' → Solves g h w k' → k' = k := by
  set c := w ^ 2 / g with hc
  have hc0 : 0 < c := div_pos (by positivity) hg
  have hsolve : ∀ k, Solves g h w k ↔ k * Real.tanh (k * h) = c := by
    intro k
    unfold Solves
    rw [hc, eq_div_iff hg.ne']
    constructor <;> intro e <;> linarith
  set t := Real.tanh (c * h) with ht
  have ht0 : 0 < t := tanh_pos (mul_pos hc0 hh)
  have ht1 : t < 1 := Real.tanh_lt_one _
  have hcont : Continuous (fun k : ℝ => k * Real.tanh (k * h)) := by
    have : (fun k : ℝ => k * Real.tanh (k * h)) = fun k => k * (Real.sinh (k * h) / Real.cosh (k * h)) := by
      funext k; rw [Real.tanh_eq_sinh_div_cosh]
    rw [this]
    refine continuous_id.mul (Continuous.div ?_ ?_ (fun k => (Real.cosh_pos _).ne'))
    · exact Real.continuous_sinh.comp (continuous_id.mul continuous_const)
    · exact Real.continuous_cosh.comp (continuous_id.mul continuous_const)
  have hct : c < c / t := by rw [lt_div_iff₀ ht0]; nlinarith
  have hlo : c * Real.tanh (c * h) < c := by nlinarith
  have hhi : c ≤ c / t * Real.tanh (c / t * h) := by
    have h1 : t ≤ Real.tanh (c / t * h) := by
      have := mul_tanh_strictMono h hh hc0 hct
      have h2 : (c / t) * Real.tanh (c * h) ≤ c / t * Real.tanh (c / t * h) := by
        apply mul_le_mul_of_nonneg_left _ (by positivity)
        rw [Real.tanh_eq_sinh_div_cosh, Real.tanh_eq_sinh_div_cosh, div_le_div_iff₀ (Real.cosh_pos _) (Real.cosh_pos _)]
        have h2 : 0 ≤ Real.sinh (c / t * h - c * h) := Real.sinh_nonneg_iff.2 (by nlinarith)
        rw [Real.sinh_sub] at h2
        linarith
      exact le_of_mul_le_mul_left h2 (by positivity)
    calc c = c / t * t := by field_simp
      _ ≤ _ := mul_le_mul_of_nonneg_left h1 (by positivity)
  obtain ⟨k, hk, hke⟩ := intermediate_value_Icc hct.le hcont.continuousOn ⟨hlo.le, hhi⟩
  have hkc : c < k := by
    rcases eq_or_lt_of_le hk.1 with h | h
    · rw [← h] at hke
      simp only at hke
      linarith
    · exact h
  refine ⟨k, hc0.trans hkc, (hsolve k).2 hke, hkc, fun k' h1 h2 => ?_⟩
  have h2' := (hsolve k').1 h2
  rcases lt_trichotomy k' k with hlt | hlt | hlt
  · have := mul_tanh_strictMono h hh h1 hlt
    simp only at hke
    linarith
  · exact hlt
  · have := mul_tanh_strictMono h hh (hc0.trans hkc) hlt
    simp only at hke
    linarith

/-! ### Arrays -/

theorem mapM_forall {β γ : Type} (f : β → Option γ) (P : β → γ → Prop) : ∀ l : List β, (∀ a ∈ l, ∃ y, f a = some y ∧ P a y) →
    ∃ ys, l.mapM f = some ys ∧ ys.length = l.length ∧ ∀ (i : ℕ) a y, l[i]? = some a → ys[i]? = some y → P a y ∧ f a = some y
  | [], _ => ⟨[], rfl, rfl, fun i a y h => by simp at h⟩
  | a :: l, h => by
    obtain ⟨y, h1, h2⟩ := h a (by simp)
    obtain ⟨ys, h3, h4, h5⟩ := mapM_forall f P l (fun b hb => h b (List.mem_cons_of_mem _ hb))
    refine ⟨y :: ys, by rw [List.mapM_cons, h1, h3]; rfl, by simp [h4], ?_⟩
    intro i b z hb hz
    cases i with
    | zero =>
      simp only [List.getElem?_cons_zero, Option.some.injEq] at hb hz
      subst hb hz
      exact ⟨h2, h1⟩
    | succ i =>
      simp only [List.getElem?_cons_succ] at hb hz
      exact h5 i b z hb hz

theorem start_settled (g rtol atol : ℝ) (ha : 0 ≤ atol) (a : WArg) : Settled rtol atol (start g a) := by
  intro _
  unfold start active
  simp [ha]

theorem deepK_pos {g w : ℝ} (hw : 0 < w) : deepK g w = w ^ 2 / g := by
  unfold deepK sgn; rw [if_neg (not_lt.2 hw.le), if_neg hw.ne']; ring

theorem deepK_neg (g w : ℝ) : deepK g (-w) = -deepK g w := by
  unfold deepK sgn
  rcases lt_trichotomy w 0 with h | h | h
  · rw [if_neg (by linarith), if_neg (by linarith), if_pos h]; ring
  · rw [h]; simp
  · rw [if_pos (by linarith), if_neg (by linarith), if_neg h.ne']; ring

theorem deepK_zero (g : ℝ) : deepK g 0 = 0 := by unfold deepK sgn; simp

theorem abs_deepK (g w : ℝ) (hg : 0 < g) : |deepK g w| = w ^ 2 / g := by
  rcases lt_trichotomy w 0 with h | h | h
  · have := deepK_neg g (-w)
    rw [neg_neg, deepK_pos (by linarith : 0 < -w)] at this
    rw [this, abs_neg, abs_of_pos (by have : 0 < -w := by linarith
                                      positivity)]
    ring
  · rw [h, deepK_zero]; simp
  · rw [deepK_pos h, abs_of_pos (by positivity)]

/-- What is claimed of the wave number `k` computed for one element; `conv`: the iteration has stopped. -/
structure Good (g rtol atol : ℝ) (a : WArg) (k : ℝ) (conv : Prop) : Prop where
  /-- same sign -/
  pos : 0 < a.w → 0 < k
  /-- same sign -/
  neg : a.w < 0 → k < 0
  /-- no wave -/
  zero : a.w = 0 → k = 0
  /-- deep water -/
  deep : (∀ h, a.h = some h → 10 ^ 25 ≤ h) → |k| = a.w ^ 2 / g
  /-- finite depth: `k'` is the iterate before the last one -/
  finite : ∀ h, a.h = some h → h < 10 ^ 25 → a.w ≠ 0 → conv → ∃ k', (|k' - k| ≤ rtol * |k| ∨ |k' - k| ≤ atol) ∧
    |g * k' * Real.tanh (k' * h) - a.w ^ 2| ≤ 3 / 2 * g * |k' - k|

theorem good_deep (g rtol atol : ℝ) (hg : 0 < g) (a : WArg) (conv : Prop) (hf : a.w = 0 ∨ isFinite a.h = false) :
    Good g rtol atol a (deepK g a.w) conv := by
  refine ⟨fun h => ?_, fun h => ?_, fun h => ?_, fun _ => abs_deepK g a.w hg, fun h h1 h2 h3 _ => ?_⟩
  · rw [deepK_pos h]; positivity
  · have := deepK_neg g (-a.w)
    rw [neg_neg, deepK_pos (by linarith : 0 < -a.w)] at this
    have h2 : 0 < (-a.w) ^ 2 / g := by have : 0 < -a.w := by linarith
                                       positivity
    linarith
  · rw [h, deepK_zero]
  · rcases hf with hf | hf
    · exact absurd hf h3
    · rw [h1] at hf
      simp only [isFinite, decide_eq_false_iff_not] at hf
      exact absurd h2 hf

theorem good_pos (g rtol atol : ℝ) (hg : 0 < g) (w th h : ℝ) (hh : 0 < h) (hw : 0 < w) (hf : h < 10 ^ 25) (n : ℕ) :
    ∃ y, loop1 g rtol atol n (start g ⟨w, th, some h⟩) = some y ∧ Good g rtol atol ⟨w, th, some h⟩ y.1.k (y.2 = false) := by
  obtain ⟨y, h1, h2, h3, h4, h5⟩ := loop1_pos g rtol atol hg h hh n (start g ⟨w, th, some h⟩) rfl (by simpa [start] using hw.ne')
    (by simp only [start]; rw [deepK_pos hw]; positivity)
  refine ⟨y, h1, fun _ => h4, fun h => ?_, fun h => ?_, fun hd => ?_, fun h' e1 e2 e3 hc => ?_⟩
  · simp only at h; linarith
  · simp only at h; linarith
  · exact absurd (hd h rfl) (not_le.2 hf)
  · simp only [Option.some.injEq] at e1
    subst e1
    rcases h5 with h5 | ⟨hact, k', p1, p2, p3⟩
    · rw [h5] at hc
      simp [start, hw, isFinite, hf] at hc
    · refine ⟨k', ?_, ?_⟩
      · rw [hc] at hact
        unfold active at hact
        have := hact.symm
        simp only [Bool.and_eq_false_iff, decide_eq_false_iff_not, gt_iff_lt, not_lt] at this
        rw [show k' - y.1.k = y.1.hn by rw [p2]; ring]
        exact this
      · rw [show k' - y.1.k = y.1.hn by rw [p2]; ring]
        have e : g * k' * Real.tanh (k' * h) - w ^ 2 = g * y.1.hn * slope (k' * h) := by
          have : g * (y.1.hn * slope (k' * h)) = g * (k' * Real.tanh (k' * h) - w ^ 2 / g) := by rw [p3]; rfl
          have h2 : g * (w ^ 2 / g) = w ^ 2 := by field_simp
          linarith
        simp only
        rw [e, abs_mul, abs_mul, abs_of_pos hg, abs_of_pos (slope_pos (mul_pos p1 hh))]
        have := slope_lt (mul_pos p1 hh)
        have h3 : 0 ≤ g * |y.1.hn| := by positivity
        nlinarith

theorem good_all (g rtol atol : ℝ) (hg : 0 < g) (a : WArg) (hh : ∀ h, a.h = some h → 0 < h) (n : ℕ) :
    ∃ y, loop1 g rtol atol n (start g a) = some y ∧ Good g rtol atol a y.1.k (y.2 = false) := by
  by_cases hf : a.w = 0 ∨ isFinite a.h = false
  · have hs : start g a = ((start g a).1, false) := by
      refine Prod.ext rfl ?_
      unfold start
      rcases hf with hf | hf
      · simp [hf]
      · simp [hf]
    refine ⟨((start g a).1, false), by rw [hs, loop1_false], ?_⟩
    exact good_deep g rtol atol hg a _ hf
  · push Not at hf
    obtain ⟨hw, hf⟩ := hf
    obtain ⟨w, th, d⟩ := a
    cases d with
    | none => simp [isFinite] at hf
    | some h =>
      have hf' : h < 10 ^ 25 := by simpa [isFinite] using hf
      rcases lt_or_gt_of_ne hw with h1 | h1
      · simp only at h1
        obtain ⟨y, e1, e2⟩ := good_pos g rtol atol hg (-w) th h (hh h rfl) (by linarith) hf' n
        have hm : start g ⟨w, th, some h⟩ = (mirror (start g ⟨-w, th, some h⟩).1, (start g ⟨-w, th, some h⟩).2) := by
          unfold start mirror
          simp only [neg_neg, neg_zero, deepK_neg]
          congr 1
          simp [Bool.or_comm]
        refine ⟨(mirror y.1, y.2), by rw [hm, loop1_mirror, e1]; rfl, fun h' => ?_, fun _ => ?_, fun h' => ?_, fun hd => ?_,
          fun h' q1 q2 q3 hc => ?_⟩
        · simp only at h'; linarith
        · have := e2.pos (by simpa using h1)
          simp only [mirror]; linarith
        · exact absurd h' hw
        · exact absurd (hd h rfl) (not_le.2 hf')
        · obtain ⟨k', r1, r2⟩ := e2.finite h' q1 q2 (by simpa using hw) hc
          refine ⟨-k', ?_, ?_⟩
          · simp only [mirror, abs_neg]
            rwa [show -k' - -y.1.k = -(k' - y.1.k) by ring, abs_neg]
          · simp only [mirror]
            rw [show -k' - -y.1.k = -(k' - y.1.k) by ring, abs_neg, neg_mul, Real.tanh_neg,
              show g * -k' * -Real.tanh (k' * h') = g * k' * Real.tanh (k' * h') by ring]
            simpa using r2
      · exact good_pos g rtol atol hg w th h (hh h rfl) h1 hf' n

/-- **C83 (the computed wave numbers).**  For positive depths `w2k` always returns a wave number for every frequency.  It has the
sign of the frequency.  From depth `10^25` on its size is `w²/g`.  If no warning is issued, then it differs from a number `k'`,
which satisfies the dispersion relation up to `1.5·g·|k' - k|`, by no more than the tolerance. -/
theorem C83_wave_numbers (l : List WArg) (hl : l ≠ []) (g rtol atol : ℝ) (hg : 0 < g) (ha : 0 ≤ atol) (n : ℕ)
    (hh : ∀ a ∈ l, ∀ h, a.h = some h → 0 < h) :
    ∃ (ks : List ℝ) (warned : Bool), ks.length = l.length ∧
      w2k l [g] n rtol atol = .ok (.pair (List.zipWith (fun k (a : WArg) => k * Real.cos a.th) ks l)
        (List.zipWith (fun k (a : WArg) => k * Real.sin a.th) ks l) warned) ∧
      ∀ (i : ℕ) a k, l[i]? = some a → ks[i]? = some k → Good g rtol atol a k (warned = false) := by
  unfold w2k
  rw [if_neg (by simpa using hl)]
  simp only [List.head?_cons, List.getLast?_singleton]
  by_cases hd : l.all (fun a => isDeep a.h) = true
  · rw [if_pos hd]
    refine ⟨l.map (fun a => deepK g a.w), false, by simp, ?_, ?_⟩
    · rw [List.zipWith_map_left, List.zipWith_map_left, List.zipWith_self, List.zipWith_self]
      congr 2
      apply List.map_congr_left
      intro a _
      field_simp
    · intro i a k hi hk
      rw [List.getElem?_map, hi] at hk
      simp only [Option.map_some, Option.some.injEq] at hk
      rw [← hk]
      apply good_deep g rtol atol hg
      right
      have := List.all_eq_true.1 hd a (List.mem_of_getElem? hi)
      cases hah : a.h with
      | none => rfl
      | some h =>
        rw [hah] at this
        simp only [isDeep, decide_eq_true_eq] at this
        simp only [isFinite, decide_eq_false_iff_not, not_lt]
        exact this.le
  · rw [if_neg hd, if_neg (by simp)]
    have hex := mapM_forall (fun a => loop1 g rtol atol n (start g a)) (fun a y => Good g rtol atol a y.1.k (y.2 = false)) l
      (fun a hal => good_all g rtol atol hg a (hh a hal) n)
    obtain ⟨ys, e1, e2, e3⟩ := hex
    have hfst := loop_fst g rtol atol n (l.map (start g)) (by
      intro x hx
      obtain ⟨a, -, rfl⟩ := List.mem_map.1 hx
      exact start_settled g rtol atol ha a)
    rw [mapM_map', e1] at hfst
    cases hlp : loop g rtol atol n (l.map (start g)) with
    | none => rw [hlp] at hfst; simp at hfst
    | some r =>
      rw [hlp] at hfst
      simp only [Option.map_some, Option.some.injEq] at hfst
      simp only
      refine ⟨ys.map (fun y => y.1.k), ! decide (r.2 < n), by simp [e2], ?_, ?_⟩
      · rw [hfst, List.zipWith_map_left, List.zipWith_map_left]
      · intro i a k hi hk
        rw [List.getElem?_map] at hk
        cases hy : ys[i]? with
        | none => rw [hy] at hk; simp at hk
        | some y =>
          rw [hy] at hk
          simp only [Option.map_some, Option.some.injEq] at hk
          have hgd := (e3 i a y hi hy).1
          rw [← hk]
          refine ⟨hgd.pos, hgd.neg, hgd.zero, hgd.deep, fun h q1 q2 q3 hc => hgd.finite h q1 q2 q3 ?_⟩
          have hlt : r.2 < n := by simpa using hc
          have := (loop_done g rtol atol n _ r hlp).2 hlt y (by rw [hfst]; exact List.mem_of_getElem? hy)
          exact this

/-- **C83 (iterations).**  The number of iterations never exceeds `count_limit`. -/
theorem C83_iterations (g rtol atol : ℝ) (n : ℕ) (l : List (Pt × Bool)) (r : List (Pt × Bool) × ℕ)
    (h : loop g rtol atol n l = some r) : r.2 ≤ n := (loop_done g rtol atol n l r h).1

/-- **C83 (normalization).**  Two gravity constants are accepted in deep water only. -/
theorem C83_two_constants (l : List WArg) (g0 g1 rtol atol : ℝ) (n : ℕ) (a : WArg) (ha : a ∈ l) (h : ℝ) (hah : a.h = some h)
    (hh : h ≤ 10 ^ 25) : w2k l [g0, g1] n rtol atol = .error .valueError := by
  unfold w2k
  have hne : l ≠ [] := List.ne_nil_of_mem ha
  rw [if_neg (by simpa using hne)]
  simp only [List.head?_cons, List.getLast?_cons_cons, List.getLast?_singleton]
  rw [if_neg, if_pos (by simp)]
  intro hall
  have := List.all_eq_true.1 hall a ha
  rw [hah] at this
  simp only [isDeep, decide_eq_true_eq] at this
  linarith

/-- **C111 (elementwise).**  Every element of the result is what `w2k` gives for that element alone. -/
theorem C111_elementwise (l : List WArg) (g rtol atol : ℝ) (hg : 0 < g) (ha : 0 ≤ atol) (n : ℕ)
    (hh : ∀ a ∈ l, ∀ h, a.h = some h → 0 < h) (k1 k2 : List ℝ) (warned : Bool)
    (hw : w2k l [g] n rtol atol = .ok (.pair k1 k2 warned)) (i : ℕ) (a : WArg) (hi : l[i]? = some a) :
    ∃ x y warned', k1[i]? = some x ∧ k2[i]? = some y ∧ w2k [a] [g] n rtol atol = .ok (.pair [x] [y] warned') := by
  have hne : l ≠ [] := List.ne_nil_of_mem (List.mem_of_getElem? hi)
  -- the wave number of one element
  have key : ∀ l : List WArg, l ≠ [] → (∀ a ∈ l, ∀ h, a.h = some h → 0 < h) → ∃ warned',
      w2k l [g] n rtol atol = .ok (.pair
        (l.map (fun a => ((loop1 g rtol atol n (start g a)).map (fun y => y.1.k)).getD 0 * Real.cos a.th))
        (l.map (fun a => ((loop1 g rtol atol n (start g a)).map (fun y => y.1.k)).getD 0 * Real.sin a.th)) warned') := by
    intro l hl hpos
    unfold w2k
    rw [if_neg (by simpa using hl)]
    simp only [List.head?_cons, List.getLast?_singleton]
    by_cases hd : l.all (fun a => isDeep a.h) = true
    · rw [if_pos hd]
      refine ⟨false, ?_⟩
      have hk : ∀ a ∈ l, ((loop1 g rtol atol n (start g a)).map (fun y => y.1.k)).getD 0 = deepK g a.w := by
        intro a hal
        have hda := List.all_eq_true.1 hd a hal
        have hfin : isFinite a.h = false := by
          cases hah : a.h with
          | none => rfl
          | some h =>
            rw [hah] at hda
            simp only [isDeep, decide_eq_true_eq] at hda
            simp only [isFinite, decide_eq_false_iff_not, not_lt]
            exact hda.le
        have hs : start g a = ((start g a).1, false) := Prod.ext rfl (by unfold start; simp [hfin])
        rw [hs, loop1_false]
        rfl
      congr 2
      · exact List.map_congr_left (fun a hal => by rw [hk a hal])
      · exact List.map_congr_left (fun a hal => by rw [hk a hal]; field_simp)
    · rw [if_neg hd, if_neg (by simp)]
      obtain ⟨ys, e1, e2, e3⟩ := mapM_forall (fun a => loop1 g rtol atol n (start g a)) (fun a y => True) l
        (fun a hal => by obtain ⟨y, h1, -⟩ := good_all g rtol atol hg a (hpos a hal) n; exact ⟨y, h1, trivial⟩)
      have hfst := loop_fst g rtol atol n (l.map (start g)) (by
        intro x hx
        obtain ⟨a, -, rfl⟩ := List.mem_map.1 hx
        exact start_settled g rtol atol ha a)
      rw [mapM_map', e1] at hfst
      cases hlp : loop g rtol atol n (l.map (start g)) with
      | none => rw [hlp] at hfst; simp at hfst
      | some r =>
        rw [hlp] at hfst
        simp only [Option.map_some, Option.some.injEq] at hfst
        simp only
        refine ⟨! decide (r.2 < n), ?_⟩
        rw [hfst]
        have hys : ∀ F : ℝ → WArg → ℝ, List.zipWith (fun (p : Pt × Bool) (a : WArg) => F p.1.k a) ys l =
            l.map (fun a => F (((loop1 g rtol atol n (start g a)).map (fun y => y.1.k)).getD 0) a) := by
          intro F
          apply List.ext_getElem?
          intro j
          rw [List.getElem?_zipWith, List.getElem?_map]
          cases hj : l[j]? with
          | none => cases ys[j]? <;> rfl
          | some b =>
            have : j < ys.length := by rw [e2]; exact (List.getElem?_eq_some_iff.1 hj).1
            rw [List.getElem?_eq_getElem this]
            have := (e3 j b ys[j] hj (List.getElem?_eq_getElem this)).2
            simp only [Option.map_some, this, Option.getD_some]
        rw [hys (fun k a => k * Real.cos a.th), hys (fun k a => k * Real.sin a.th)]
  obtain ⟨c1, e1⟩ := key l hne hh
  obtain ⟨c2, e2⟩ := key [a] (by simp) (by
    intro b hb
    rw [List.mem_singleton] at hb
    subst hb
    exact hh b (List.mem_of_getElem? hi))
  rw [e1] at hw
  simp only [Except.ok.injEq, Ret.pair.injEq] at hw
  obtain ⟨q1, q2, -⟩ := hw
  refine ⟨_, _, c2, ?_, ?_, e2⟩
  · rw [← q1, List.getElem?_map, hi]; rfl
  · rw [← q2, List.getElem?_map, hi]; rfl

/-- **C83 (opposite frequencies).**  The opposite frequency has the opposite wave number. -/
theorem C83_odd (w th : ℝ) (d : Depth) (hd : ∀ h, d = some h → 0 < h) (g rtol atol : ℝ) (hg : 0 < g) (ha : 0 ≤ atol) (n : ℕ) :
    ∃ k1 k2 c c', w2k [⟨w, th, d⟩] [g] n rtol atol = .ok (.pair [k1] [k2] c) ∧
      w2k [⟨-w, th, d⟩] [g] n rtol atol = .ok (.pair [-k1] [-k2] c') := by
  by_cases hdeep : isDeep d = true
  · refine ⟨deepK g w * Real.cos th, deepK g w * Real.sin th * g / g, false, false, ?_, ?_⟩
    · unfold w2k
      simp [hdeep]
    · unfold w2k
      simp [hdeep, deepK_neg, neg_div]
  · have hsingle : ∀ w, ∃ y c, loop1 g rtol atol n (start g ⟨w, th, d⟩) = some y ∧
        w2k [⟨w, th, d⟩] [g] n rtol atol = .ok (.pair [y.1.k * Real.cos th] [y.1.k * Real.sin th] c) := by
      intro w
      obtain ⟨y, h1, -⟩ := good_all g rtol atol hg ⟨w, th, d⟩ hd n
      have hfst := loop_fst g rtol atol n [start g ⟨w, th, d⟩] (by
        intro x hx
        rw [List.mem_singleton] at hx
        subst hx
        exact start_settled g rtol atol ha _)
      rw [List.mapM_cons, h1] at hfst
      cases hlp : loop g rtol atol n [start g ⟨w, th, d⟩] with
      | none => rw [hlp] at hfst; simp at hfst
      | some r =>
        rw [hlp] at hfst
        simp only [Option.map_some, List.mapM_nil, Option.pure_def, Option.bind_eq_bind, Option.bind_some, Option.some.injEq] at hfst
        refine ⟨y, ! decide (r.2 < n), h1, ?_⟩
        unfold w2k
        simp [hdeep, hlp, hfst]
    obtain ⟨y, c, h1, h2⟩ := hsingle w
    obtain ⟨y', c', h1', h2'⟩ := hsingle (-w)
    have hm : start g ⟨-w, th, d⟩ = (mirror (start g ⟨w, th, d⟩).1, (start g ⟨w, th, d⟩).2) := by
      unfold start mirror
      simp only [neg_zero, deepK_neg]
      congr 1
      simp [Bool.or_comm]
    rw [hm, loop1_mirror, h1] at h1'
    simp only [Option.map_some, Option.some.injEq] at h1'
    refine ⟨_, _, c, c', h2, ?_⟩
    rw [h2', ← h1']
    simp only [mirror]
    rw [neg_mul, neg_mul]

/-- The hypotheses can be met: a mixed array of depths. -/
example : ∃ (ks : List ℝ) (warned : Bool), ks.length = 2 ∧
    w2k [⟨1, 0, some 20⟩, ⟨-1, 1, none⟩] [981 / 100] 100 (1 / 10 ^ 7) (1 / 10 ^ 14) =
      .ok (.pair (List.zipWith (fun k (a : WArg) => k * Real.cos a.th) ks [⟨1, 0, some 20⟩, ⟨-1, 1, none⟩])
        (List.zipWith (fun k (a : WArg) => k * Real.sin a.th) ks [⟨1, 0, some 20⟩, ⟨-1, 1, none⟩]) warned) := by
  obtain ⟨ks, c, h1, h2, -⟩ := C83_wave_numbers [⟨1, 0, some 20⟩, ⟨-1, 1, none⟩] (by simp) (981 / 100) (1 / 10 ^ 7) (1 / 10 ^ 14)
    (by norm_num) (by norm_num) 100 (by
      intro a ha h hah
      simp only [List.mem_cons, List.not_mem_nil, or_false] at ha
      rcases ha with rfl | rfl
      · simp only [Option.some.injEq] at hah; rw [← hah]; norm_num
      · simp at hah)
  exact ⟨ks, c, h1, h2⟩

end Wafo.Disp
