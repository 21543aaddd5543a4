import Verif.Slopes.Props

set_option linter.unusedSectionVars false

/-! The option `monotone=True` of `slopes` (C71). -/

namespace Wafo.Slopes

/-! ### Direction of the raw slopes -/

/-- Both slopes of every interval have the direction of its secant. -/
def Dirs (n : ℕ) (m yp : ℕ → ℝ) : Prop :=
  ∀ j, j + 1 < n → SameDir (m j) (yp j) ∧ SameDir (m j) (yp (j + 1))

theorem Within.sameDir {m d : ℝ} (h : Within m d) : SameDir m d := by
  unfold SameDir
  rcases h with ⟨h1, h2⟩ | ⟨h1, h2⟩
  · exact mul_nonneg (by linarith) h1
  · exact mul_nonneg_of_nonpos_of_nonpos (by linarith) h2

theorem dirs_of_nonneg (n : ℕ) (m yp : ℕ → ℝ) (hm : ∀ j, j + 1 < n → 0 ≤ m j) (hy : ∀ k, k < n → 0 ≤ yp k) :
    Dirs n m yp :=
  fun j hj => ⟨mul_nonneg (hm j hj) (hy j (by omega)), mul_nonneg (hm j hj) (hy (j + 1) hj)⟩

theorem secant_nonneg (n : ℕ) (m : ℕ → ℝ) (hn : 2 ≤ n) (hm : ∀ j, j + 1 < n → 0 ≤ m j) (k : ℕ) (hk : k < n) :
    0 ≤ secant n m k := by
  unfold secant
  split_ifs with h1 h2
  · exact hm _ (by omega)
  · exact hm _ (by omega)
  · have := hm (k - 1) (by omega)
    have := hm k (by omega)
    linarith

theorem catmull_nonneg (n : ℕ) (x y m : ℕ → ℝ) (hn : 2 ≤ n) (hm : ∀ j, j + 1 < n → 0 ≤ m j)
    (hx : ∀ j, j + 1 < n → x j < x (j + 1)) (hy : ∀ j, j + 1 < n → y j ≤ y (j + 1)) (k : ℕ) (hk : k < n) :
    0 ≤ catmullRom n x y m k := by
  unfold catmullRom
  split_ifs with h1 h2
  · exact hm _ (by omega)
  · exact hm _ (by omega)
  · have a1 := hx (k - 1) (by omega)
    have a2 := hx k (by omega)
    have b1 := hy (k - 1) (by omega)
    have b2 := hy k (by omega)
    rw [show k - 1 + 1 = k by omega] at a1 b1
    exact div_nonneg (by linarith) (by linarith)

theorem stinemanInner_nonneg (h0 h1 m0 m1 : ℝ) (hh0 : 0 < h0) (hh1 : 0 < h1) (p0 : 0 ≤ m0) (p1 : 0 ≤ m1) :
    0 ≤ stinemanInner h0 h1 m0 m1 := by unfold stinemanInner; positivity

theorem stinemanEnd_dir (m0 a1 : ℝ) (hm : 0 ≤ m0) : SameDir m0 (stinemanEnd m0 a1 (2 * m0 - a1)) := by
  unfold SameDir
  rcases hm.eq_or_lt with h | h
  · simp [← h]
  · apply mul_nonneg hm
    simp only [stinemanEnd, sgn_pos h, one_mul]
    split_ifs with c
    · linarith
    · have hneg : m0 - a1 < 0 := not_le.1 c
      rw [abs_of_pos h, abs_of_neg hneg]
      have hden : 0 < m0 + -(m0 - a1) := by linarith
      have : m0 + m0 * (m0 - a1) / (m0 + -(m0 - a1)) = m0 * m0 / (m0 + -(m0 - a1)) := by field_simp; ring
      rw [this]; positivity

theorem withEnds_inner (n : ℕ) (m inner : ℕ → ℝ) (k : ℕ) (h0 : 0 < k) (h1 : k + 1 < n) :
    withEnds n m inner k = inner k := by
  simp only [withEnds]; rw [if_neg (by omega), if_neg (by omega), if_pos ⟨h0, h1⟩]

theorem withEnds_zero (n : ℕ) (m inner : ℕ → ℝ) (hn : 2 ≤ n) :
    withEnds n m inner 0 = 2 * m 0 - (if 1 + 1 < n then inner 1 else 0) := by
  simp only [withEnds]; rw [if_neg (by omega), if_pos trivial]; simp

theorem withEnds_last (n : ℕ) (m inner : ℕ → ℝ) (hn : 2 ≤ n) :
    withEnds n m inner (n - 1) = 2 * m (n - 2) - withEnds n m inner (n - 2) := by
  simp only [withEnds]; rw [if_pos trivial, if_neg (show ¬ n - 2 = n - 1 by omega)]

theorem stineman_dirs (n : ℕ) (h m : ℕ → ℝ) (hn : 2 ≤ n) (hh : ∀ i, i + 1 < n → 0 < h i)
    (hm : ∀ j, j + 1 < n → 0 ≤ m j) : Dirs n m (stineman n h m) := by
  set inner : ℕ → ℝ := fun k => stinemanInner (h (k - 1)) (h k) (m (k - 1)) (m k) with hin
  have hmid : ∀ k, 0 < k → k + 1 < n → 0 ≤ stineman n h m k := by
    intro k h0 h1
    simp only [stineman]
    rw [if_neg (by omega), if_neg (by omega), withEnds_inner _ _ _ _ h0 h1]
    exact stinemanInner_nonneg _ _ _ _ (hh _ (by omega)) (hh _ h1) (hm _ (by omega)) (hm _ h1)
  have hlast : SameDir (m (n - 2)) (stineman n h m (n - 1)) := by
    simp only [stineman]
    rw [if_pos trivial, withEnds_last _ _ _ hn]
    exact stinemanEnd_dir _ _ (hm _ (by omega))
  have hfirst : SameDir (m 0) (stineman n h m 0) := by
    simp only [stineman]
    rw [if_neg (by omega), if_pos trivial, withEnds_zero _ _ _ hn]
    have : withEnds n m (fun k => stinemanInner (h (k - 1)) (h k) (m (k - 1)) (m k)) 1 =
        (if 1 + 1 < n then stinemanInner (h (1 - 1)) (h 1) (m (1 - 1)) (m 1) else 0) := by
      split_ifs with c
      · rw [withEnds_inner _ _ _ _ (by omega) c]
      · obtain rfl : n = 2 := by omega
        simp [withEnds]
    rw [this]
    exact stinemanEnd_dir _ _ (hm _ (by omega))
  intro j hj
  constructor
  · rcases Nat.eq_zero_or_pos j with rfl | h0
    · exact hfirst
    · exact mul_nonneg (hm j hj) (hmid j h0 hj)
  · rcases Nat.lt_or_ge (j + 2) n with h1 | h1
    · exact mul_nonneg (hm j hj) (hmid (j + 1) (by omega) (by omega))
    · have e : j + 1 = n - 1 := by omega
      have e2 : j = n - 2 := by omega
      rw [e, e2]; exact hlast

/-! ### Reflection -/

theorem withEnds_neg (n : ℕ) (m i1 i2 : ℕ → ℝ) (h : ∀ k, i2 k = - i1 k) (k : ℕ) :
    withEnds n (fun k => -m k) i2 k = - withEnds n m i1 k := by
  simp only [withEnds, h]
  split_ifs <;> ring

theorem stinemanInner_neg (h0 h1 m0 m1 : ℝ) : stinemanInner h0 h1 (-m0) (-m1) = - stinemanInner h0 h1 m0 m1 := by
  simp only [stinemanInner]; rw [← neg_div]; congr 1 <;> ring

theorem stinemanEnd_neg (m0 a1 a0 : ℝ) : stinemanEnd (-m0) (-a1) (-a0) = - stinemanEnd m0 a1 a0 := by
  simp only [stinemanEnd, sgn_neg, abs_neg]
  have e : -m0 - -a1 = -(m0 - a1) := by ring
  rw [e, neg_mul_neg, abs_neg]
  split_ifs
  · rfl
  · rw [mul_neg, neg_div]; ring

theorem stineman_neg (n : ℕ) (h m : ℕ → ℝ) (k : ℕ) :
    stineman n h (fun k => -m k) k = - stineman n h m k := by
  simp only [stineman]
  have e := withEnds_neg n m (fun k => stinemanInner (h (k - 1)) (h k) (m (k - 1)) (m k))
    (fun k => stinemanInner (h (k - 1)) (h k) (-m (k - 1)) (-m k)) (fun k => stinemanInner_neg _ _ _ _)
  simp only [e, stinemanEnd_neg]
  split_ifs <;> rfl

theorem secant_neg (n : ℕ) (m : ℕ → ℝ) (k : ℕ) : secant n (fun k => -m k) k = - secant n m k := by
  simp only [secant]; split_ifs <;> ring

theorem catmull_neg (n : ℕ) (x y m : ℕ → ℝ) (k : ℕ) :
    catmullRom n x (fun k => -y k) (fun k => -m k) k = - catmullRom n x y m k := by
  simp only [catmullRom]; split_ifs <;> ring

theorem Dirs.neg {n : ℕ} {m yp : ℕ → ℝ} (h : Dirs n (fun k => -m k) (fun k => -yp k)) : Dirs n m yp := by
  intro j hj
  have := h j hj
  simp only [SameDir, neg_mul_neg] at this
  exact this

/-- The methods whose raw slopes follow the direction of monotone data. -/
def Follows (tension : ℝ) : Method → Prop
  | .secant => True
  | .catmullRom => True
  | .cardinal => tension ≤ 1
  | .stineman => True
  | _ => False

theorem raw_dirs (eps garb tension : ℝ) (n : ℕ) (x y h m : ℕ → ℝ) (meth : Method) (hn : 2 ≤ n)
    (hF : Follows tension meth) (hx : ∀ j, j + 1 < n → x j < x (j + 1)) (hh : ∀ j, j + 1 < n → h j = x (j + 1) - x j)
    (hm : ∀ j, j + 1 < n → m j = (y (j + 1) - y j) / h j)
    (hy : (∀ j, j + 1 < n → y j ≤ y (j + 1)) ∨ (∀ j, j + 1 < n → y (j + 1) ≤ y j)) :
    Dirs n m (rawSlopes eps garb tension n x y h m meth) := by
  have hpos : ∀ j, j + 1 < n → 0 < h j := fun j hj => by rw [hh j hj]; exact sub_pos.2 (hx j hj)
  rcases hy with hy | hy
  · have hm0 : ∀ j, j + 1 < n → 0 ≤ m j := fun j hj => by
      rw [hm j hj]; exact div_nonneg (sub_nonneg.2 (hy j hj)) (hpos j hj).le
    cases meth <;> simp only [Follows] at hF
    · exact dirs_of_nonneg _ _ _ hm0 (secant_nonneg n m hn hm0)
    · exact dirs_of_nonneg _ _ _ hm0
        (fun k hk => mul_nonneg (by linarith) (catmull_nonneg n x y m hn hm0 hx hy k hk))
    · exact dirs_of_nonneg _ _ _ hm0 (catmull_nonneg n x y m hn hm0 hx hy)
    · exact stineman_dirs n h m hn hpos hm0
  · have hm0 : ∀ j, j + 1 < n → 0 ≤ -m j := fun j hj => by
      rw [hm j hj, ← neg_div, neg_sub]; exact div_nonneg (sub_nonneg.2 (hy j hj)) (hpos j hj).le
    have hy' : ∀ j, j + 1 < n → -y j ≤ -y (j + 1) := fun j hj => neg_le_neg (hy j hj)
    apply Dirs.neg
    cases meth <;> simp only [Follows] at hF
    · have := dirs_of_nonneg n _ _ hm0 (secant_nonneg n (fun k => -m k) hn hm0)
      simpa only [rawSlopes, ← secant_neg] using this
    · have := dirs_of_nonneg n (fun k => -m k) (fun k => (1 - tension) * catmullRom n x (fun k => -y k) (fun k => -m k) k)
        hm0 (fun k hk => mul_nonneg (by linarith) (catmull_nonneg n x _ _ hn hm0 hx hy' k hk))
      simpa only [rawSlopes, catmull_neg, mul_neg] using this
    · have := dirs_of_nonneg n _ _ hm0 (catmull_nonneg n x (fun k => -y k) (fun k => -m k) hn hm0 hx hy')
      have e : (fun k => -rawSlopes eps garb tension n x y h m .catmullRom k) =
          catmullRom n x (fun k => -y k) (fun k => -m k) := by
        funext k; rw [catmull_neg]; rfl
      rw [e]; exact this
    · have := stineman_dirs n h (fun k => -m k) hn hpos hm0
      simpa only [rawSlopes, ← stineman_neg] using this

theorem fixed_slopes_monotone (x y : List ℝ) (hx : x.Pairwise (· < ·)) (raw : ℕ → ℝ)
    (hdir : Dirs x.length (sec x y) raw)
    (hadj : ∀ i, Flagged x.length (sec x y) raw i → Flagged x.length (sec x y) raw (i + 1) →
      Within (sec x y i) (raw (i + 1)))
    (f : ℝ → ℝ)
    (hf : IsHermite x y ((List.range x.length).map (fixMonotone Real.sqrt x.length (sec x y) raw)) f) :
    (y.length = x.length → y.Pairwise (· ≤ ·) → MonotoneOn f (Set.Icc (x.getD 0 0) (x.getD (x.length - 1) 0))) ∧
    (y.length = x.length → y.Pairwise (· ≥ ·) → AntitoneOn f (Set.Icc (x.getD 0 0) (x.getD (x.length - 1) 0))) := by
  have := hermite_monotone x y _ hx f hf (by
    intro i hi
    rw [getD_map_range _ _ _ (by omega), getD_map_range _ _ _ hi]
    exact fix_within x.length (sec x y) raw i hi hdir (hadj i))
  refine ⟨fun hl h => this.2.1 fun i hi => ?_, fun hl h => this.2.2 fun i hi => ?_⟩
  · rw [List.getD_eq_getElem _ _ (by omega), List.getD_eq_getElem _ _ (by omega)]
    exact List.pairwise_iff_getElem.1 h _ _ _ _ (by omega)
  · rw [List.getD_eq_getElem _ _ (by omega), List.getD_eq_getElem _ _ (by omega)]
    exact List.pairwise_iff_getElem.1 h _ _ _ _ (by omega)

theorem getD_step (x : List ℝ) (R : ℝ → ℝ → Prop) (hx : x.Pairwise R) (j : ℕ) (hj : j + 1 < x.length) :
    R (x.getD j 0) (x.getD (j + 1) 0) := by
  rw [List.getD_eq_getElem _ _ (by omega), List.getD_eq_getElem _ _ hj]
  exact List.pairwise_iff_getElem.1 hx _ _ _ _ (by omega)

/-- **C71 (partial)**  For monotone data and the methods 'secant', 'Catmull-Rom', 'Cardinal' (tension <= 1) and
'stineman', `slopes(x, y, method, monotone=True)` succeeds and its Hermite interpolant is monotone, provided that no two
neighbouring intervals are both adjusted (unless the raw slope between them was small enough anyway).

Missing: the proviso is needed (`C71_neighbours_refuted`), and for 'parabola', 'steffen' (and 'fritsch', 'akima', whose
end slopes are extrapolated likewise) the claim is false (`C71_parabola_refuted`, `C71_steffen_refuted`). -/
theorem C71_monotone_partial (eps garb tension : ℝ) (x y : List ℝ) (meth : Method) (hF : Follows tension meth)
    (hx : x.Pairwise (· < ·)) (hy : y.length = x.length) (hn : 2 ≤ x.length) :
    ∃ d, slopes eps garb Real.sqrt x y meth tension true false = .ok d ∧
      ∃ raw, slopes eps garb Real.sqrt x y meth tension false false = .ok raw ∧
        ((∀ i, Flagged x.length (sec x y) (fun k => raw.getD k 0) i →
            Flagged x.length (sec x y) (fun k => raw.getD k 0) (i + 1) → Within (sec x y i) (raw.getD (i + 1) 0)) →
          ∀ f, IsHermite x y d f →
            (y.Pairwise (· ≤ ·) → MonotoneOn f (Set.Icc (x.getD 0 0) (x.getD (x.length - 1) 0))) ∧
            (y.Pairwise (· ≥ ·) → AntitoneOn f (Set.Icc (x.getD 0 0) (x.getD (x.length - 1) 0)))) := by
  have hst : meth = .steffen → 3 ≤ x.length := by rintro rfl; exact absurd hF (by simp [Follows])
  refine ⟨_, slopes0_ok eps garb Real.sqrt x y meth tension true hx hy hn hst, _,
    slopes0_ok eps garb Real.sqrt x y meth tension false hx hy hn hst, ?_⟩
  intro hadj f hf
  rw [if_pos rfl] at hf
  simp only [Bool.false_eq_true, if_false] at hadj
  set raw := rawSlopes eps garb tension x.length (fun k => x.getD k 0) (fun k => y.getD k 0) (width x) (sec x y) meth
  have hdirs : (y.Pairwise (· ≤ ·) ∨ y.Pairwise (· ≥ ·)) → Dirs x.length (sec x y) raw := by
    intro h
    refine raw_dirs eps garb tension x.length _ _ _ _ meth hn hF (fun j hj => getD_step x _ hx j hj) (fun j hj => rfl)
      (fun j hj => rfl) ?_
    rcases h with h | h
    · exact .inl fun j hj => getD_step y _ h j (by omega)
    · exact .inr fun j hj => getD_step y _ h j (by omega)
  have hflag : ∀ i, Flagged x.length (sec x y) raw i →
      Flagged x.length (sec x y) (fun k => ((List.range x.length).map raw).getD k 0) i := by
    rintro i ⟨h1, h2⟩
    refine ⟨h1, ?_⟩
    have e : ∀ k, k < x.length → flatten x.length (sec x y) (fun k => ((List.range x.length).map raw).getD k 0) k =
        flatten x.length (sec x y) raw k := by
      intro k hk; simp only [flatten]; rw [getD_map_range _ _ _ hk]
    simp only [dist] at h2 ⊢
    rw [e i (by omega), e (i + 1) h1]; exact h2
  have hadj' : ∀ i, Flagged x.length (sec x y) raw i → Flagged x.length (sec x y) raw (i + 1) →
      Within (sec x y i) (raw (i + 1)) := by
    intro i h1 h2
    have := hadj i (hflag i h1) (hflag (i + 1) h2)
    rwa [getD_map_range _ _ _ h1.1] at this
  exact ⟨fun h => (fixed_slopes_monotone x y hx raw (hdirs (.inl h)) hadj' f hf).1 hy h,
    fun h => (fixed_slopes_monotone x y hx raw (hdirs (.inr h)) hadj' f hf).2 hy h⟩

/-- **C71**, method 'pchip': no proviso is needed. -/
theorem C71_pchip (eps garb tension : ℝ) (x y : List ℝ)
    (hx : x.Pairwise (· < ·)) (hy : y.length = x.length) (hn : 2 ≤ x.length) :
    ∃ d, slopes eps garb Real.sqrt x y .pchip tension true false = .ok d ∧
      ∀ f, IsHermite x y d f →
        (y.Pairwise (· ≤ ·) → MonotoneOn f (Set.Icc (x.getD 0 0) (x.getD (x.length - 1) 0))) ∧
        (y.Pairwise (· ≥ ·) → AntitoneOn f (Set.Icc (x.getD 0 0) (x.getD (x.length - 1) 0))) := by
  refine ⟨_, slopes0_ok eps garb Real.sqrt x y .pchip tension true hx hy hn (by simp), ?_⟩
  intro f hf
  rw [if_pos rfl] at hf
  have hw := pchip_within x.length (width x) (sec x y) hn (fun i hi => width_pos x hx i hi)
  have := fixed_slopes_monotone x y hx _ (fun j hj => ⟨(hw j hj).1.sameDir, (hw j hj).2.sameDir⟩)
    (fun i h1 _ => (hw i h1.1).2) f hf
  exact ⟨this.1 hy, this.2 hy⟩

end Wafo.Slopes
