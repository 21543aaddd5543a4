import Verif.Dist.LogisticProps

/-!
# C256: the functions of the distributions put together from pieces fit together
-/

namespace Wafo.Dist

open MeasureTheory Set Filter Topology Real

set_option linter.unusedSectionVars false

theorem triang_left {c x : ℝ} (hc : 0 < c) (hx : x ≤ c) : Triang.cdf c x = x * x / c := by
  unfold Triang.cdf
  rw [if_neg hc.ne']
  rcases hx.lt_or_eq with h | h
  · rw [if_pos h]
  · subst h
    rw [if_neg (lt_irrefl _)]
    split_ifs with h1
    · have : x - 1 ≠ 0 := sub_ne_zero.2 h1.2
      field_simp
      ring
    · have h2 : x = 1 := by
        by_contra h3
        exact h1 ⟨le_rfl, h3⟩
      rw [h2]
      norm_num

theorem triang_right {c x : ℝ} (hc : c < 1) (hx : c ≤ x) :
    Triang.cdf c x = 1 - (1 - x) ^ 2 / (1 - c) := by
  unfold Triang.cdf
  have h1 : c - 1 ≠ 0 := by linarith
  have h2 : 1 - c ≠ 0 := by linarith
  split_ifs with h3 h4 h5
  · rw [h3]
    ring
  · exact absurd h4 (not_lt.2 hx)
  · field_simp
    ring
  · exact absurd ⟨hx, hc.ne⟩ h5

/-- The triangular distribution. -/
theorem C256_triang (c : ℝ) (hc : Triang.argcheck c) :
    IsCdf (Ioo 0 1) (Triang.pdf c) (Triang.cdf c) ∧
    IsPpf (Ioo 0 1) (Triang.cdf c) (Triang.ppf c) := by
  obtain ⟨hc0, hc1⟩ := hc
  have hp : IsPpf (Ioo 0 1) (Triang.cdf c) (Triang.ppf c) := by
    have hl : ∀ q, 0 < q → q < c → 0 < √(c * q) ∧ √(c * q) < c := by
      intro q h0 h1
      have hc : 0 < c := h0.trans h1
      refine ⟨sqrt_pos.2 (by positivity), ?_⟩
      rw [sqrt_lt' hc]
      nlinarith
    have hr : ∀ q, q < 1 → c ≤ q → c ≤ 1 - √((1 - c) * (1 - q)) ∧
        1 - √((1 - c) * (1 - q)) < 1 := by
      intro q h1 h2
      have h3 : 0 < 1 - c := by linarith
      have h4 : 0 < 1 - q := by linarith
      have h5 : 0 < √((1 - c) * (1 - q)) := sqrt_pos.2 (by positivity)
      have h6 : √((1 - c) * (1 - q)) ≤ 1 - c := by
        rw [sqrt_le_left h3.le]
        nlinarith
      constructor <;> linarith
    refine ⟨?_, ?_, ?_, ?_⟩
    · intro q h0 h1
      unfold Triang.ppf
      split_ifs with h
      · have := hl q h0 h
        exact ⟨this.1, by linarith⟩
      · have h' := hr q h1 (not_lt.1 h)
        refine ⟨?_, h'.2⟩
        rcases hc0.lt_or_eq with h2 | h2
        · linarith
        · have h3 : √((1 - c) * (1 - q)) < 1 := by
            rw [sqrt_lt' one_pos, ← h2]
            linarith
          linarith
    · intro q h0 h1
      unfold Triang.ppf
      split_ifs with h
      · have hc : 0 < c := h0.trans h
        rw [triang_left hc (hl q h0 h).2.le, mul_self_sqrt (by positivity),
          mul_div_cancel_left₀ _ hc.ne']
      · have h2 : c < 1 := by linarith [not_lt.1 h]
        have h3 : 0 < 1 - c := by linarith
        have h4 : 0 ≤ 1 - q := by linarith
        rw [triang_right h2 (hr q h1 (not_lt.1 h)).1, sub_sub_cancel, sq_sqrt (by positivity),
          mul_div_cancel_left₀ _ h3.ne']
        ring
    · intro x hx
      rcases lt_or_ge x c with h | h
      · have hc : 0 < c := hx.1.trans h
        rw [triang_left hc h.le]
        have h0 := hx.1
        refine ⟨by positivity, ?_⟩
        rw [div_lt_one hc]
        nlinarith
      · have h2 : c < 1 := lt_of_le_of_lt h hx.2
        have h3 : 0 < 1 - c := by linarith
        have h4 : 0 < 1 - x := by linarith [hx.2]
        rw [triang_right h2 h]
        have h5 : 0 < (1 - x) ^ 2 / (1 - c) := by positivity
        have h6 : (1 - x) ^ 2 / (1 - c) < 1 := by
          rw [div_lt_one h3]
          have := hx.1
          nlinarith
        constructor <;> linarith
    · intro x hx
      rcases lt_or_ge x c with h | h
      · have hc : 0 < c := hx.1.trans h
        have h0 := hx.1
        rw [triang_left hc h.le, Triang.ppf, if_pos (by rw [div_lt_iff₀ hc]; nlinarith),
          mul_div_cancel₀ _ hc.ne', sqrt_mul_self h0.le]
      · have h2 : c < 1 := lt_of_le_of_lt h hx.2
        have h3 : 0 < 1 - c := by linarith
        have h4 : 0 < 1 - x := by linarith [hx.2]
        have h5 : (1 - x) ^ 2 / (1 - c) ≤ 1 - c := by
          rw [div_le_iff₀ h3]
          nlinarith
        rw [triang_right h2 h, Triang.ppf, if_neg (by linarith), sub_sub_cancel,
          mul_div_cancel₀ _ h3.ne', sqrt_sq h4.le]
        ring
  refine ⟨isCdf_of_ppf isOpen_Ioo ordConnected_Ioo ?_ ?_ hp, hp⟩
  · intro x hx
    have hBd : 0 < c → x ≤ c → HasDerivAt (fun y => y * y / c) (Triang.pdf c x) x := by
      intro hc hxc
      refine HasDerivAt.congr_deriv (((hasDerivAt_id x).mul (hasDerivAt_id x)).div_const c) ?_
      simp only [id_eq]
      unfold Triang.pdf
      rw [if_neg hc.ne']
      rcases hxc.lt_or_eq with h | h
      · rw [if_pos h]
        ring
      · have h1 : c ≠ 1 := by
          have := hx.2
          intro h2
          linarith
        rw [if_neg (by linarith), if_pos ⟨by linarith, h1⟩, h]
        have : 1 - c ≠ 0 := by
          intro h2
          exact h1 (by linarith)
        field_simp
        norm_num
    have hAd : c < 1 → c ≤ x →
        HasDerivAt (fun y => 1 - (1 - y) ^ 2 / (1 - c)) (Triang.pdf c x) x := by
      intro hc hxc
      have h2 : 1 - c ≠ 0 := by linarith
      refine HasDerivAt.congr_deriv
        (((((hasDerivAt_id x).const_sub 1).pow 2).div_const (1 - c)).const_sub 1) ?_
      simp only [id_eq]
      unfold Triang.pdf
      split_ifs with h3 h4 h5
      · rw [h3]
        norm_num
        ring
      · exact absurd h4 (not_lt.2 hxc)
      · push_cast
        field_simp
      · exact absurd ⟨hxc, hc.ne⟩ h5
    rcases hc0.lt_or_eq with h0 | h0
    · rcases hc1.lt_or_eq with h1 | h1
      · exact glue_deriv (p := c) (fun y hy => triang_left h0 hy) (fun y hy => triang_right h1 hy)
          (hAd h1) (hBd h0)
      · have hxc : x < c := by rw [h1]; exact hx.2
        refine (hBd h0 hxc.le).congr_of_eventuallyEq ?_
        filter_upwards [gt_mem_nhds hxc] with y hy using triang_left h0 (le_of_lt hy)
    · have hxc : c < x := by rw [← h0]; exact hx.1
      have h1 : c < 1 := by rw [← h0]; norm_num
      refine (hAd h1 hxc.le).congr_of_eventuallyEq ?_
      filter_upwards [lt_mem_nhds hxc] with y hy using triang_right h1 (le_of_lt hy)
  · intro x hx
    have h0 := hx.1
    have h1 := hx.2
    unfold Triang.pdf
    split_ifs with h2 h3 h4
    · linarith
    · positivity
    · have : 0 < 1 - c := by
        rcases hc1.lt_or_eq with h5 | h5
        · linarith
        · exact absurd h5 h4.2
      have : 0 < 1 - x := by linarith
      positivity
    · positivity

example : Triang.argcheck (1 / 4) ∧ Triang.cdf (1 / 4) (1 / 4) = 1 / 4 ∧
    Triang.cdf (1 / 4) (1 / 2) = 2 / 3 := by
  refine ⟨⟨by norm_num, by norm_num⟩, ?_, ?_⟩
  · rw [triang_left (by norm_num) le_rfl]
    norm_num
  · rw [triang_right (by norm_num) (by norm_num)]
    norm_num

theorem trapz_left {c d x : ℝ} (hc : 0 < c) (hcd : c ≤ d) (hx : x ≤ c) :
    Trapz.cdf c d x = x ^ 2 / c / (d - c + 1) := by
  unfold Trapz.cdf
  rcases hx.lt_or_eq with h | h
  · rw [if_pos h]
  · rw [if_neg (by linarith), if_pos ⟨h.ge, by linarith⟩, h]
    field_simp
    ring

theorem trapz_mid {c d x : ℝ} (hx : c ≤ x) (hxd : x ≤ d) :
    Trapz.cdf c d x = (c + 2 * (x - c)) / (d - c + 1) := by
  unfold Trapz.cdf
  rw [if_neg (not_lt.2 hx), if_pos ⟨hx, hxd⟩]

theorem trapz_right {c d x : ℝ} (hd : d < 1) (hcd : c ≤ d) (hx : d ≤ x) :
    Trapz.cdf c d x = 1 - (1 - x) ^ 2 / (d - c + 1) / (1 - d) := by
  unfold Trapz.cdf
  have h1 : 1 - d ≠ 0 := by linarith
  have h2 : d - c + 1 ≠ 0 := by linarith
  rw [if_neg (by linarith)]
  split_ifs with h
  · have : x = d := le_antisymm h.2 hx
    rw [this]
    field_simp
    ring
  · rfl

/-- The trapezoidal distribution. -/
theorem C256_trapz (c d : ℝ) (hcd : Trapz.argcheck c d) :
    IsCdf (Ioo 0 1) (Trapz.pdf c d) (Trapz.cdf c d) ∧
    IsPpf (Ioo 0 1) (Trapz.cdf c d) (Trapz.ppf c d) := by
  obtain ⟨hc0, -, -, hd1, hcd⟩ := hcd
  have hD : 0 < d - c + 1 := by linarith
  have hqc : Trapz.cdf c d c = c / (d - c + 1) := by
    rw [trapz_mid le_rfl hcd]
    congr 1
    ring
  have hqd : Trapz.cdf c d d = (2 * d - c) / (d - c + 1) := by
    rw [trapz_mid hcd le_rfl]
    congr 1
    ring
  have hp : IsPpf (Ioo 0 1) (Trapz.cdf c d) (Trapz.ppf c d) := by
    -- the three ranges of the probability
    have hl : ∀ q, 0 < q → q < c / (d - c + 1) → 0 < c ∧ 0 < √(q * c * (1 + d - c)) ∧
        √(q * c * (1 + d - c)) < c := by
      intro q h0 h1
      have h2 : q * (d - c + 1) < c := (lt_div_iff₀ hD).1 h1
      have hc : 0 < c := lt_trans (by positivity) h2
      have h3 : 0 < 1 + d - c := by linarith
      refine ⟨hc, sqrt_pos.2 (by positivity), ?_⟩
      rw [sqrt_lt' hc]
      nlinarith
    have hm : ∀ q, c / (d - c + 1) ≤ q → q ≤ (2 * d - c) / (d - c + 1) →
        c ≤ 0.5 * q * (1 + d - c) + 0.5 * c ∧ 0.5 * q * (1 + d - c) + 0.5 * c ≤ d := by
      intro q h0 h1
      have h2 : c ≤ q * (d - c + 1) := (div_le_iff₀ hD).1 h0
      have h3 : q * (d - c + 1) ≤ 2 * d - c := (le_div_iff₀ hD).1 h1
      norm_num
      constructor <;> linarith
    have hr : ∀ q, q < 1 → (2 * d - c) / (d - c + 1) < q → d < 1 ∧
        d < 1 - √((1 - q) * (d - c + 1) * (1 - d)) ∧
        1 - √((1 - q) * (d - c + 1) * (1 - d)) < 1 := by
      intro q h1 h2
      have h3 : 2 * d - c < q * (d - c + 1) := (div_lt_iff₀ hD).1 h2
      have h4 : d < 1 := by nlinarith
      have h5 : 0 < 1 - d := by linarith
      have h6 : 0 < 1 - q := by linarith
      have h7 : 0 < √((1 - q) * (d - c + 1) * (1 - d)) := sqrt_pos.2 (by positivity)
      have h8 : √((1 - q) * (d - c + 1) * (1 - d)) < 1 - d := by
        rw [sqrt_lt' h5]
        nlinarith
      exact ⟨h4, by linarith, by linarith⟩
    refine ⟨?_, ?_, ?_, ?_⟩
    · intro q h0 h1
      simp only [Trapz.ppf, hqc, hqd]
      split_ifs with h2 h3
      · have := hl q h0 h2
        exact ⟨this.2.1, by linarith⟩
      · have h4 := hm q (not_lt.1 h2) h3
        have h5 : 0 < q * (1 + d - c) := mul_pos h0 (by linarith)
        refine ⟨by norm_num; linarith, ?_⟩
        have h6 : q * (1 + d - c) < 1 + d - c := by nlinarith
        norm_num
        linarith
      · have := hr q h1 (not_le.1 h3)
        exact ⟨by linarith, this.2.2⟩
    · intro q h0 h1
      simp only [Trapz.ppf, hqc, hqd]
      split_ifs with h2 h3
      · obtain ⟨hc, h4, h5⟩ := hl q h0 h2
        have h3 : 0 < 1 + d - c := by linarith
        rw [trapz_left hc hcd h5.le, sq_sqrt (by positivity)]
        rw [show q * c * (1 + d - c) = q * (d - c + 1) * c by ring]
        field_simp
      · have h4 := hm q (not_lt.1 h2) h3
        rw [trapz_mid h4.1 h4.2]
        field_simp
        ring
      · obtain ⟨h4, h5, h6⟩ := hr q h1 (not_le.1 h3)
        have h7 : 0 < 1 - d := by linarith
        have h8 : 0 < 1 - q := by linarith
        rw [trapz_right h4 hcd h5.le, sub_sub_cancel, sq_sqrt (by positivity)]
        field_simp
        ring
    · intro x hx
      have h0 := hx.1
      have h1 := hx.2
      rcases lt_or_ge x c with h | h
      · have hc : 0 < c := h0.trans h
        rw [trapz_left hc hcd h.le, div_div, div_lt_one (by positivity)]
        refine ⟨by positivity, ?_⟩
        have : 0 ≤ c * (d - c) := mul_nonneg hc.le (by linarith)
        nlinarith
      · rcases le_or_gt x d with h' | h'
        · rw [trapz_mid h h', div_lt_one hD]
          exact ⟨div_pos (by linarith) hD, by linarith⟩
        · have hd : d < 1 := h'.trans h1
          have h2 : 0 < 1 - d := by linarith
          have h3 : 0 < 1 - x := by linarith
          rw [trapz_right hd hcd h'.le, div_div]
          have h5 : 0 < (1 - x) ^ 2 / ((d - c + 1) * (1 - d)) := by positivity
          have h6 : (1 - x) ^ 2 / ((d - c + 1) * (1 - d)) < 1 := by
            rw [div_lt_one (by positivity)]
            have : 0 ≤ (d - c) * (1 - d) := mul_nonneg (by linarith) h2.le
            nlinarith
          constructor <;> linarith
    · intro x hx
      have h0 := hx.1
      have h1 := hx.2
      simp only [Trapz.ppf, hqc, hqd]
      rcases lt_or_ge x c with h | h
      · have hc : 0 < c := h0.trans h
        have h3 : 0 < 1 + d - c := by linarith
        rw [trapz_left hc hcd h.le, if_pos (by
          apply div_lt_div_of_pos_right _ hD
          rw [div_lt_iff₀ hc]
          nlinarith)]
        rw [show x ^ 2 / c / (d - c + 1) * c * (1 + d - c) = x ^ 2 by
          rw [show 1 + d - c = d - c + 1 by ring]; field_simp, sqrt_sq h0.le]
      · rcases le_or_gt x d with h' | h'
        · rw [trapz_mid h h', if_neg (not_lt.2 (by
            apply div_le_div_of_nonneg_right _ hD.le
            linarith)), if_pos (by
            apply div_le_div_of_nonneg_right _ hD.le
            linarith)]
          rw [show 1 + d - c = d - c + 1 by ring]
          field_simp
          ring
        · have hd : d < 1 := h'.trans h1
          have h2 : 0 < 1 - d := by linarith
          have h3 : 0 < 1 - x := by linarith
          have hmono : (2 * d - c) / (d - c + 1) < Trapz.cdf c d x := by
            rw [trapz_right hd hcd h'.le, div_lt_iff₀ hD]
            have h9 : (1 - x) ^ 2 / (d - c + 1) / (1 - d) * (d - c + 1) = (1 - x) ^ 2 / (1 - d) := by
              field_simp
            have h10 : (1 - x) ^ 2 / (1 - d) < 1 - d := by
              rw [div_lt_iff₀ h2]
              nlinarith
            rw [sub_mul, h9]
            linarith
          have hcd' : c / (d - c + 1) ≤ (2 * d - c) / (d - c + 1) :=
            div_le_div_of_nonneg_right (by linarith) hD.le
          rw [if_neg (by linarith), if_neg (by linarith), trapz_right hd hcd h'.le, sub_sub_cancel,
            show (1 - x) ^ 2 / (d - c + 1) / (1 - d) * (d - c + 1) * (1 - d) = (1 - x) ^ 2 by
              field_simp, sqrt_sq h3.le]
          ring
  refine ⟨isCdf_of_ppf isOpen_Ioo ordConnected_Ioo ?_ ?_ hp, hp⟩
  · intro x hx
    have h0 := hx.1
    have h1 := hx.2
    have hLd : 0 < c → x ≤ c →
        HasDerivAt (fun y => y ^ 2 / c / (d - c + 1)) (Trapz.pdf c d x) x := by
      intro hc hxc
      refine HasDerivAt.congr_deriv (((hasDerivAt_pow 2 x).div_const c).div_const (d - c + 1)) ?_
      simp only [Trapz.pdf]
      rcases hxc.lt_or_eq with h | h
      · rw [if_pos h]
        push_cast
        field_simp
      · rw [if_neg (by linarith), if_pos ⟨h.ge, by linarith⟩, h]
        push_cast
        field_simp
    have hMd : c ≤ x → x ≤ d →
        HasDerivAt (fun y => (c + 2 * (y - c)) / (d - c + 1)) (Trapz.pdf c d x) x := by
      intro hxc hxd
      refine HasDerivAt.congr_deriv
        (((((hasDerivAt_id x).sub_const c).const_mul 2).const_add c).div_const (d - c + 1)) ?_
      simp only [Trapz.pdf]
      rw [if_neg (not_lt.2 hxc), if_pos ⟨hxc, hxd⟩, mul_one]
    have hRd : d < 1 → d ≤ x →
        HasDerivAt (fun y => 1 - (1 - y) ^ 2 / (d - c + 1) / (1 - d)) (Trapz.pdf c d x) x := by
      intro hd hxd
      have h2 : 1 - d ≠ 0 := by linarith
      refine HasDerivAt.congr_deriv
        ((((((hasDerivAt_id x).const_sub 1).pow 2).div_const (d - c + 1)).div_const
          (1 - d)).const_sub 1) ?_
      simp only [Trapz.pdf, id_eq]
      rw [if_neg (by linarith)]
      split_ifs with h
      · have : x = d := le_antisymm h.2 hxd
        rw [this]
        push_cast
        field_simp
      · push_cast
        field_simp
    -- the middle and the right piece
    have hR : c ≤ x → HasDerivAt (fun y => if y ≤ d then (c + 2 * (y - c)) / (d - c + 1)
        else 1 - (1 - y) ^ 2 / (d - c + 1) / (1 - d)) (Trapz.pdf c d x) x := by
      intro hxc
      rcases hd1.lt_or_eq with hd | hd
      · refine glue_deriv (p := d) (B := fun y => (c + 2 * (y - c)) / (d - c + 1))
          (A := fun y => 1 - (1 - y) ^ 2 / (d - c + 1) / (1 - d)) (fun y hy => if_pos hy) ?_
          (hRd hd) (hMd hxc)
        intro y hy
        rcases hy.lt_or_eq with h | h
        · exact if_neg (not_le.2 h)
        · have h2 : 1 - d ≠ 0 := by linarith
          rw [if_pos h.ge, ← h]
          field_simp
          ring
      · refine (hMd hxc (by linarith)).congr_of_eventuallyEq ?_
        filter_upwards [gt_mem_nhds h1] with y hy
        exact if_pos (by linarith)
    have hAeq : ∀ y, c ≤ y → y < 1 ∨ d < 1 → Trapz.cdf c d y = if y ≤ d then
        (c + 2 * (y - c)) / (d - c + 1) else 1 - (1 - y) ^ 2 / (d - c + 1) / (1 - d) := by
      intro y hy h
      split_ifs with h2
      · exact trapz_mid hy h2
      · rcases h with h | h
        · exact trapz_right (by linarith [not_le.1 h2]) hcd (not_le.1 h2).le
        · exact trapz_right h hcd (not_le.1 h2).le
    rcases lt_trichotomy x c with h | h | h
    · have hc : 0 < c := h0.trans h
      refine (hLd hc h.le).congr_of_eventuallyEq ?_
      filter_upwards [gt_mem_nhds h] with y hy using trapz_left hc hcd (le_of_lt hy)
    · have hc : 0 < c := h ▸ h0
      rcases hd1.lt_or_eq with hd | hd
      · exact glue_deriv (p := c) (fun y hy => trapz_left hc hcd hy)
          (fun y hy => hAeq y hy (Or.inr hd)) hR (hLd hc)
      · refine glue_deriv (p := c) (fun y hy => trapz_left hc hcd hy)
          (A := fun y => if y ≤ d then (c + 2 * (y - c)) / (d - c + 1)
            else Trapz.cdf c d y) ?_ ?_ (hLd hc)
        · intro y hy
          split_ifs with h2
          · exact trapz_mid hy h2
          · rfl
        · intro hxc
          refine (hMd hxc (by linarith)).congr_of_eventuallyEq ?_
          filter_upwards [gt_mem_nhds h1] with y hy
          exact if_pos (by linarith)
    · refine (hR h.le).congr_of_eventuallyEq ?_
      filter_upwards [lt_mem_nhds h, gt_mem_nhds h1] with y hy hy1 using
        hAeq y (le_of_lt hy) (Or.inl hy1)
  · intro x hx
    have h0 := hx.1
    have h1 := hx.2
    simp only [Trapz.pdf]
    split_ifs with h2 h3
    · have hc : 0 < c := h0.trans h2
      positivity
    · positivity
    · have h5 : d < x := by
        by_contra h6
        exact h3 ⟨not_lt.1 h2, not_lt.1 h6⟩
      have h4 : 0 < 1 - d := by linarith
      have h6 : 0 < 1 - x := by linarith
      positivity

example : Trapz.argcheck (1 / 4) (1 / 2) ∧ Trapz.cdf (1 / 4) (1 / 2) (1 / 4) = 1 / 5 ∧
    Trapz.cdf (1 / 4) (1 / 2) (3 / 4) = 9 / 10 := by
  refine ⟨⟨by norm_num, by norm_num, by norm_num, by norm_num, by norm_num⟩, ?_, ?_⟩
  · rw [trapz_mid le_rfl (by norm_num)]
    norm_num
  · rw [trapz_right (by norm_num) (by norm_num) (by norm_num)]
    norm_num

/-- The double Weibull distribution.  The density has no finite value at `0` when `c < 1`. -/
theorem C256_dweibull (c : ℝ) (hc : 0 < c) :
    IsCdf univ (DWeibull.pdf c) (DWeibull.cdf c) ∧ IsPpf univ (DWeibull.cdf c) (DWeibull.ppf c) ∧
    IsLog {0}ᶜ (DWeibull.pdf c) (DWeibull.logpdf c) := by
  have hB : ∀ x, x ≤ 0 → DWeibull.cdf c x = 0.5 * exp (-((-x) ^ c)) := by
    intro x hx
    simp only [DWeibull.cdf, if_neg (not_lt.2 hx), abs_of_nonpos hx]
  have hA : ∀ x, 0 ≤ x → DWeibull.cdf c x = 1 - 0.5 * exp (-(x ^ c)) := by
    intro x hx
    rcases hx.lt_or_eq with h | h
    · simp only [DWeibull.cdf, if_pos h, abs_of_pos h]
    · rw [← h, hB 0 le_rfl, neg_zero, zero_rpow hc.ne']
      norm_num
  have hpos : ∀ x, x ≠ 0 → 0 < DWeibull.pdf c x := by
    intro x hx
    have h1 := rpow_pos_of_pos (abs_pos.2 hx) (c - 1)
    unfold DWeibull.pdf
    positivity
  have hp : IsPpf univ (DWeibull.cdf c) (DWeibull.ppf c) := by
    refine ⟨fun _ _ _ => mem_univ _, ?_, ?_, ?_⟩
    · intro q h0 h1
      simp only [DWeibull.ppf]
      rcases le_or_gt q 0.5 with h | h
      · have h2 : q ≤ 1 / 2 := by norm_num at h; exact h
        rw [if_neg (not_lt.2 h), if_pos h]
        have h3 : 0 ≤ -log (2 * q) := by
          have := log_nonpos (by linarith : 0 ≤ 2 * q) (by linarith)
          linarith
        have h4 : 0 ≤ (-log (2 * q)) ^ (1 / c) := rpow_nonneg h3 _
        rw [hB _ (by linarith), neg_neg, ← rpow_mul h3, one_div_mul_cancel hc.ne', rpow_one, neg_neg,
          exp_log (by linarith)]
        ring
      · have h2 : 1 / 2 < q := by norm_num at h; exact h
        rw [if_pos h, if_neg (not_le.2 h)]
        have h3 : 0 ≤ -log (2 * (1 - q)) := by
          have := log_nonpos (by linarith : 0 ≤ 2 * (1 - q)) (by linarith)
          linarith
        have h4 : 0 ≤ (-log (2 * (1 - q))) ^ (1 / c) := rpow_nonneg h3 _
        rw [hA _ h4, ← rpow_mul h3, one_div_mul_cancel hc.ne', rpow_one, neg_neg,
          exp_log (by linarith)]
        ring
    · intro x _
      rcases le_or_gt x 0 with h | h
      · have h1 := exp_le_one_iff.2 (neg_nonpos.2 (rpow_nonneg (by linarith : 0 ≤ -x) c))
        have h2 := exp_pos (-((-x) ^ c))
        rw [hB x h]
        norm_num
        constructor <;> linarith
      · have h1 := exp_le_one_iff.2 (neg_nonpos.2 (rpow_nonneg h.le c))
        have h2 := exp_pos (-(x ^ c))
        rw [hA x h.le]
        norm_num
        constructor <;> linarith
    · intro x _
      simp only [DWeibull.ppf]
      rcases le_or_gt x 0 with h | h
      · have h1 := exp_le_one_iff.2 (neg_nonpos.2 (rpow_nonneg (by linarith : 0 ≤ -x) c))
        have h2 : DWeibull.cdf c x ≤ 0.5 := by
          rw [hB x h, show (0.5 : ℝ) = 1 / 2 by norm_num]
          linarith
        rw [if_neg (not_lt.2 h2), if_pos h2, hB x h,
          show 2 * (0.5 * exp (-((-x) ^ c))) = exp (-((-x) ^ c)) by ring, log_exp, neg_neg,
          ← rpow_mul (by linarith), mul_one_div_cancel hc.ne', rpow_one, neg_neg]
      · have h1 := exp_lt_one_iff.2 (neg_neg_of_pos (rpow_pos_of_pos h c))
        have h2 : DWeibull.cdf c x > 0.5 := by
          rw [hA x h.le]
          norm_num
          linarith
        rw [if_pos h2, if_neg (not_le.2 h2), hA x h.le,
          show 2 * (1 - (1 - 0.5 * exp (-(x ^ c)))) = exp (-(x ^ c)) by ring, log_exp, neg_neg,
          ← rpow_mul h.le, mul_one_div_cancel hc.ne', rpow_one]
  refine ⟨isCdf_of_ppf' {0} isOpen_univ ordConnected_univ ?_ ?_ ?_ hp, hp, ?_⟩
  · intro x _
    refine (glue_continuousAt (p := 0) hB hA ?_ ?_).continuousWithinAt
    · intro _
      have h1 : ContinuousAt (fun y : ℝ => y ^ c) x := continuousAt_rpow_const x c (Or.inr hc.le)
      exact ((h1.neg.rexp).const_mul _).const_sub _
    · intro _
      have h1 : ContinuousAt (fun y : ℝ => (-y) ^ c) x :=
        (continuousAt_rpow_const (-x) c (Or.inr hc.le)).comp (f := fun y : ℝ => -y)
          continuous_neg.continuousAt
      exact (h1.neg.rexp).const_mul _
  · intro x _ hx0
    have hx0 : x ≠ 0 := by simpa using hx0
    rcases lt_or_gt_of_ne hx0 with h | h
    · refine HasDerivAt.congr_of_eventuallyEq (f := fun y => 0.5 * exp (-((-y) ^ c))) ?_ ?_
      · have hx' : -x ≠ 0 := (neg_pos.2 h).ne'
        refine HasDerivAt.congr_deriv
          ((((hasDerivAt_id x).neg.rpow_const (p := c) (Or.inl hx')).neg.exp).const_mul 0.5) ?_
        simp only [DWeibull.pdf, abs_of_neg h, Pi.neg_apply, id_eq]
        ring
      · filter_upwards [gt_mem_nhds h] with y hy using hB y (le_of_lt hy)
    · refine HasDerivAt.congr_of_eventuallyEq (f := fun y => 1 - 0.5 * exp (-(y ^ c))) ?_ ?_
      · refine HasDerivAt.congr_deriv
          ((((hasDerivAt_rpow_const (p := c) (Or.inl hx0)).neg.exp).const_mul 0.5).const_sub 1) ?_
        simp only [DWeibull.pdf, abs_of_pos h, Pi.neg_apply]
        ring
      · filter_upwards [lt_mem_nhds h] with y hy using hA y (le_of_lt hy)
  · intro x _
    have h1 := rpow_nonneg (abs_nonneg x) (c - 1)
    unfold DWeibull.pdf
    positivity
  · intro x hx
    have hx0 : x ≠ 0 := by simpa using hx
    have h1 := rpow_pos_of_pos (abs_pos.2 hx0) (c - 1)
    refine ⟨hpos x hx0, ?_⟩
    unfold DWeibull.pdf DWeibull.logpdf xlogy
    rw [log_mul (by positivity) (exp_pos _).ne', log_mul (by positivity) h1.ne', log_exp,
      log_rpow (abs_pos.2 hx0), log_div hc.ne' two_ne_zero]
    ring

example : (0 : ℝ) < 1 / 2 ∧ DWeibull.cdf (1 / 2) (-4) = 0.5 * exp (-2) := by
  refine ⟨by norm_num, ?_⟩
  simp only [DWeibull.cdf]
  rw [if_neg (by norm_num), show |(-4 : ℝ)| = 2 ^ 2 by norm_num, ← sqrt_eq_rpow, sqrt_sq (by norm_num)]

end Wafo.Dist
