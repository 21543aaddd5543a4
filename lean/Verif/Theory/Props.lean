import Mathlib.Tactic.Positivity
import Verif.Theory.Lemmas

set_option linter.unusedSectionVars false

/-!
Properties C212-C215 of wave_theory/core.py: hyperbolic ratios, sensor types, what `tran` returns, and how the responses are related.
-/

namespace Wafo.Theory

/-! ### C212: hyperbolic_ratio -/

/-- `hyperbolic_ratio(a, b, sa, sb)` is the quotient of cosh (positive sign) or sinh (negative sign) of `a` and of `b`, wherever the
denominator is not zero. -/
theorem C212_ratio (a b : ℝ) :
    hypRatio a b 1 1 = some (Real.cosh a / Real.cosh b) ∧
    hypRatio a b (-1) 1 = some (Real.sinh a / Real.cosh b) ∧
    (b ≠ 0 → hypRatio a b 1 (-1) = some (Real.cosh a / Real.sinh b)) ∧
    (b ≠ 0 → hypRatio a b (-1) (-1) = some (Real.sinh a / Real.sinh b)) := by
  refine ⟨?_, ?_, fun h => ?_, fun h => ?_⟩
  · rw [hypRatio_eq (by norm_num) (by norm_num)]
    simp [Hyp, (Real.cosh_pos _).ne']
  · rw [hypRatio_eq (by norm_num) (by norm_num)]
    simp [Hyp, (Real.cosh_pos _).ne']
  · rw [hypRatio_eq (by norm_num) (by norm_num), if_neg (by simpa [Hyp] using h)]
    simp [Hyp]
  · rw [hypRatio_eq (by norm_num) (by norm_num), if_neg (by simpa [Hyp] using h)]
    simp [Hyp]

/-- Only the sign of `sa` and `sb` is used. -/
theorem C212_sign (a b : ℝ) (sa sb : ℤ) : hypRatio a b sa sb = hypRatio a b sa.sign sb.sign := by
  have hs : ∀ s : ℤ, sg s.sign = sg s := fun s => by simp [sg]
  simp only [hypRatio, hs]

/-- At `b = 0` a quotient with sinh in the denominator is infinite, except `sinh 0 / sinh 0`, which is 1. -/
theorem C212_pole (a : ℝ) :
    hypRatio a 0 1 (-1) = none ∧ (a ≠ 0 → hypRatio a 0 (-1) (-1) = none) ∧ hypRatio 0 0 (-1) (-1) = some 1 := by
  refine ⟨?_, fun h => ?_, ?_⟩
  · rw [hypRatio_eq (by norm_num) (by norm_num)]
    simp [Hyp, (Real.cosh_pos _).ne']
  · rw [hypRatio_eq (by norm_num) (by norm_num)]
    simp [Hyp, h]
  · rw [hypRatio_eq (by norm_num) (by norm_num)]
    simp [Hyp]

example : hypRatio (-2) 3 (-1) 1 = some (Real.sinh (-2) / Real.cosh 3) := (C212_ratio _ _).2.1

/-! ### C213: names and numbers of sensors -/

/-- Numbers 0 to 17 have names, and `sensor_typeid` of these names gives the numbers back. -/
theorem C213_ids (ids : List ℕ) (h : ∀ i ∈ ids, i < 18) :
    ∃ names : List String, sensorType (ids.map fun i : ℕ => (i : ℤ)) = names.map some ∧ sensorTypeid names = ids.map some := by
  have key : ∀ i : ℕ, i < 18 → ∃ s : String, sensorType [(i : ℤ)] = [some s] ∧ sensorTypeid [s] = [some i] := by
    intro i hi
    have : ∀ i : Fin 18, ∃ s ∈ validNames, sensorType [((i : ℕ) : ℤ)] = [some s] ∧ sensorTypeid [s] = [some (i : ℕ)] := by decide +kernel
    obtain ⟨s, _, hs⟩ := this ⟨i, hi⟩
    exact ⟨s, hs⟩
  induction ids with
  | nil => exact ⟨[], rfl, rfl⟩
  | cons i l ih =>
    obtain ⟨ns, h1, h2⟩ := ih fun j hj => h j (List.mem_cons_of_mem _ hj)
    obtain ⟨s, h3, h4⟩ := key i (h i List.mem_cons_self)
    refine ⟨s :: ns, ?_, ?_⟩
    · have := congrArg₂ (· ++ ·) h3 h1
      simpa [sensorType] using this
    · have := congrArg₂ (· ++ ·) h4 h2
      simpa [sensorTypeid] using this

/-- All other numbers give nan. -/
theorem C213_outside (i : ℤ) (h : i < 0 ∨ 18 ≤ i) : sensorType [i] = [none] := by
  have hl : (validNames.length : ℤ) = 18 := rfl
  have e : (if i < 0 ∨ (18 : ℤ) < i then (18 : ℤ) else i) = 18 := by
    split
    · rfl
    · omega
  simp only [sensorType, hl, List.map_cons, List.map_nil, e]
  rfl

/-- If a name has a number, `sensor_type` of that number is the name in lower case. -/
theorem C213_names (s : String) (i : ℕ) (h : sensorTypeid [s] = [some i]) : sensorType [(i : ℤ)] = [some (lower s)] := by
  have key : ∀ p ∈ idTable, sensorType [((p.2 : ℕ) : ℤ)] = [some p.1] := by decide +kernel
  have hl : idTable.lookup (lower s) = some i := by simpa [sensorTypeid] using h
  have hm : (lower s, i) ∈ idTable := by
    have gen : ∀ (l : List (String × ℕ)) (x : String), l.lookup x = some i → (x, i) ∈ l := by
      intro l x
      induction l with
      | nil => intro h; simp at h
      | cons p l ih =>
        intro h
        rw [List.lookup_cons] at h
        split at h
        · rename_i hx
          have h1 : x = p.1 := by simpa using hx
          have h2 : p.2 = i := Option.some.inj h
          rw [h1, ← h2]
          exact List.mem_cons_self
        · exact List.mem_cons_of_mem _ (ih h)
    exact gen _ _ hl
  exact key _ hm

/-- The numbers that `sensor_typeid` gives cannot be passed to `sensor_type` if one name is unknown: the result is not nan but a TypeError. -/
theorem C213_unknown_refuted (names : List String) (s : String) (hs : s ∈ names) (h : sensorTypeid [s] = [none]) :
    sensorTypeNan ((sensorTypeid names).map fun i => i.map fun j : ℕ => (j : ℤ)) = .error .typeError := by
  have hl : idTable.lookup (lower s) = none := by simpa [sensorTypeid] using h
  unfold sensorTypeNan
  rw [if_neg]
  intro hall
  have hm : (none : Option ℤ) ∈ (sensorTypeid names).map fun i => i.map fun j : ℕ => (j : ℤ) :=
    List.mem_map.2 ⟨none, List.mem_map.2 ⟨s, hs, hl⟩, rfl⟩
  have := List.all_eq_true.1 hall _ hm
  simp at this

/-- A transfer function made with the number of a sensor cannot be evaluated. -/
theorem C213_number_refuted (c : Conf) (i : List ℤ) (wk : List (ℝ × ℝ)) (th : List ℝ) :
    tranArg c (.ids i) wk th = .error .keyError := rfl

/-- `sensor_typeid` knows a name in any case; a transfer function does not: for 'N' there is a KeyError. -/
theorem C213_case_refuted (c : Conf) (wk : List (ℝ × ℝ)) (th : List ℝ) :
    sensorTypeid ["N"] = [some 0] ∧ tran c "N" wk th = .error .keyError := by
  constructor
  · decide +kernel
  · rfl

/-- Every documented name, and every name `sensor_type` gives, is known to the transfer function. -/
theorem C213_known (s : String) (h : s ∈ validNames ∨ s ∈ ["P", "U", "V", "W", "U_t", "V_t", "W_t", "X_p", "Y_p", "Z_p"]) :
    ∃ r, tranDict.lookup s = some r ∧ sensorTypeid [s] = [some (validNames.idxOf (lower s))] := by
  have key : ∀ s ∈ validNames ++ ["P", "U", "V", "W", "U_t", "V_t", "W_t", "X_p", "Y_p", "Z_p"],
      (tranDict.lookup s).isSome ∧ sensorTypeid [s] = [some (validNames.idxOf (lower s))] := by decide +kernel
  obtain ⟨h1, h2⟩ := key s (List.mem_append.2 h)
  obtain ⟨r, hr⟩ := Option.isSome_iff_exists.1 h1
  exact ⟨r, hr, h2⟩

example : ∃ names : List String, sensorType [3, 17] = names.map some ∧ sensorTypeid names = [some 3, some 17] :=
  C213_ids [3, 17] (by decide)

/-! ### C214: what `tran` returns -/

/-- If `tran` returns, `Hw` has one value for each frequency, none negative, `Gwt` has a row for each direction with a value for each
frequency, and `Hw * Gwt` is the complete transfer function. -/
theorem C214_returns {c : Conf} {name : String} {wk : List (ℝ × ℝ)} {th : List ℝ} {H : List ℝ} {G : List (List ℂ)}
    (h : tran c name wk th = .ok (H, G)) :
    ∃ s, tranDict.lookup name = some s ∧ H.length = wk.length ∧ G.length = th.length ∧
      ∀ (j : ℕ) (hj : j < th.length), ∃ row, G[j]? = some row ∧ row.length = wk.length ∧
        ∀ (i : ℕ) (hi : i < wk.length), ∃ a b, H[i]? = some a ∧ row[i]? = some b ∧ 0 ≤ a ∧
          (a : ℂ) * b = transfer c s wk[i].1 wk[i].2 th[j] := by
  unfold tran at h
  split at h
  · simp at h
  · rename_i s hs
    dsimp only at h
    split at h
    · simp at h
    · rename_i hn
      have h' := Prod.mk.inj (Except.ok.inj h)
      obtain ⟨rfl, rfl⟩ := h'
      refine ⟨s, hs, by simp, by split <;> simp, ?_⟩
      intro j hj
      have hpos : ∀ (i : ℕ) (hi : i < wk.length), 0 ≤ ((response c s wk[i].1 wk[i].2 0).1).getD 0 := by
        intro i hi
        by_contra hlt
        apply hn
        rw [List.any_eq_true]
        exact ⟨_, List.mem_map.2 ⟨wk[i], List.getElem_mem hi, rfl⟩, by simpa using hlt⟩
      by_cases hg : c.igam = 2
      · refine ⟨(wk.map fun p => (response c s p.1 p.2 th[j]).2).map fun v => -v, ?_, by simp, ?_⟩
        · simp [hg, List.getElem?_eq_getElem hj]
        · intro i hi
          refine ⟨((response c s wk[i].1 wk[i].2 0).1).getD 0, -(response c s wk[i].1 wk[i].2 th[j]).2, ?_, ?_, hpos i hi, ?_⟩
          · simp [List.getElem?_eq_getElem hi]
          · simp [List.getElem?_eq_getElem hi]
          · simp only [transfer, hg, if_true, hwIndep c s _ _ th[j] 0]
            ring
      · refine ⟨wk.map fun p => (response c s p.1 p.2 th[j]).2, ?_, by simp, ?_⟩
        · simp [hg, List.getElem?_eq_getElem hj]
        · intro i hi
          refine ⟨((response c s wk[i].1 wk[i].2 0).1).getD 0, (response c s wk[i].1 wk[i].2 th[j]).2, ?_, ?_, hpos i hi, ?_⟩
          · simp [List.getElem?_eq_getElem hi]
          · simp [List.getElem?_eq_getElem hi]
          · simp only [transfer, hg, if_false, hwIndep c s _ _ th[j] 0]
            ring

/-- In water of depth `h`, at a point between the bottom and the surface, `tran` returns for every known sensor, all positive frequencies
and all positive wave numbers. -/
theorem C214_water {c : Conf} {h : ℝ} (hh : c.h = some h) (h0 : 0 < h) (hρ : 0 ≤ c.rho) (hg : 0 ≤ c.g)
    (hz : (c.igam = 1 ∧ -h ≤ c.z) ∨ (c.igam = 2 ∧ c.z ≤ h) ∨ (c.igam = 3 ∧ 0 ≤ c.z))
    {name : String} {s : Sensor} (hs : tranDict.lookup name = some s) {wk : List (ℝ × ℝ)} (hwk : ∀ p ∈ wk, 0 ≤ p.1 ∧ 0 < p.2) (th : List ℝ) :
    ∃ H G, tran c name wk th = .ok (H, G) := by
  unfold tran
  rw [hs]
  dsimp only
  rw [if_neg]
  · exact ⟨_, _, rfl⟩
  · intro hany
    rw [List.any_eq_true] at hany
    obtain ⟨v, hv, hlt⟩ := hany
    obtain ⟨p, hp, rfl⟩ := List.mem_map.1 hv
    obtain ⟨hw, hk⟩ := hwk p hp
    have hlt' : ((response c s p.1 p.2 0).1).getD 0 < 0 := by simpa using hlt
    refine absurd hlt' (not_lt.2 ?_)
    have hkh : p.2 * h ≠ 0 := (mul_pos hk h0).ne'
    have hzk : 0 ≤ zk c h p.2 := by
      unfold zk
      rcases hz with ⟨a, b⟩ | ⟨a, b⟩ | ⟨a, b⟩
      · simp only [a, if_true]
        exact mul_nonneg hk.le (by linarith)
      · simp only [a, if_true, show ¬ ((2 : ℕ) = 1) by norm_num, if_false]
        exact mul_nonneg hk.le (by linarith)
      · simp only [a, show ¬ ((3 : ℕ) = 1) by norm_num, show ¬ ((3 : ℕ) = 2) by norm_num, if_false]
        exact mul_nonneg hk.le b
    have s1 : 0 < Real.sinh (p.2 * h) := Real.sinh_pos_iff.2 (mul_pos hk h0)
    have s2 : 0 ≤ Real.sinh (zk c h p.2) := Real.sinh_nonneg_iff.2 hzk
    have c1 := Real.cosh_pos (zk c h p.2)
    have c2 := Real.cosh_pos (p.2 * h)
    cases s <;> simp only [response, ratio_cc hh, ratio_cs hh hkh, ratio_ss hh hkh, Option.map_some, Option.getD_some] <;> positivity

/-- A negative value of `Hw` is documented to be moved to `Gwt`; the code raises an IndexError instead.  This happens for the vertical
surface velocity at any negative frequency, for the slopes at any negative wave number, and for the vertical velocity at a point below the bottom. -/
theorem C214_negative_refuted (c : Conf) (name : String) (s : Sensor) (hs : tranDict.lookup name = some s) (wk : List (ℝ × ℝ)) (th : List ℝ)
    (p : ℝ × ℝ) (hp : p ∈ wk) (hneg : ((response c s p.1 p.2 0).1).getD 0 < 0) : tran c name wk th = .error .indexError := by
  unfold tran
  rw [hs]
  dsimp only
  rw [if_pos]
  rw [List.any_eq_true]
  exact ⟨_, List.mem_map.2 ⟨p, hp, rfl⟩, by simpa using hneg⟩

/-- Cases of `C214_negative_refuted`. -/
theorem C214_negative_cases (c : Conf) (w k : ℝ) (th : List ℝ) :
    (w < 0 → tran c "n_t" [(w, k)] th = .error .indexError) ∧
    (k < 0 → tran c "n_x" [(w, k)] th = .error .indexError ∧ tran c "n_y" [(w, k)] th = .error .indexError) ∧
    (∀ h, c.h = some h → 0 < h → 0 < w → 0 < k → c.igam = 1 → c.z < -h → tran c "w" [(w, k)] th = .error .indexError) := by
  refine ⟨fun h => ?_, fun h => ⟨?_, ?_⟩, fun h hh h0 hw hk hi hz => ?_⟩
  · exact C214_negative_refuted c "n_t" .n_t rfl _ th (w, k) (by simp) (by simpa [response] using h)
  · exact C214_negative_refuted c "n_x" .n_x rfl _ th (w, k) (by simp) (by simpa [response] using h)
  · exact C214_negative_refuted c "n_y" .n_y rfl _ th (w, k) (by simp) (by simpa [response] using h)
  · refine C214_negative_refuted c "w" .w rfl _ th (w, k) (by simp) ?_
    simp only [response, ratio_ss hh (mul_pos hk h0).ne', Option.map_some, Option.getD_some]
    have s1 : 0 < Real.sinh (k * h) := Real.sinh_pos_iff.2 (mul_pos hk h0)
    have s2 : Real.sinh (zk c h k) < 0 := by
      apply Real.sinh_neg_iff.2
      simp only [zk, hi, if_true]
      exact mul_neg_of_pos_of_neg hk (by linarith)
    exact mul_neg_of_pos_of_neg hw (div_neg_of_neg_of_pos s2 s1)

/-- For the default infinite depth, with `z` measured from the mean water level, the transfer functions of pressure, velocities,
accelerations and displacements are zero at every point, frequency and direction. -/
theorem C214_deep_refuted (c : Conf) (hh : c.h = none) (hi : c.igam = 1 ∨ c.igam = 2) (s : Sensor)
    (hs : s ∈ [Sensor.p, .u, .v, .w, .u_t, .v_t, .w_t, .x_p, .y_p, .z_p]) (w k th : ℝ) : transfer c s w k th = 0 := by
  have hr : ∀ sa sb : ℤ, ratio c k sa sb = none := by
    intro sa sb
    simp only [ratio, hh]
    rw [if_pos]
    rcases hi with h | h
    · exact Or.inl h
    · exact Or.inr (Or.inl h)
  simp only [List.mem_cons, List.not_mem_nil, or_false] at hs
  rcases hs with rfl | rfl | rfl | rfl | rfl | rfl | rfl | rfl | rfl | rfl <;> simp [transfer, response, hr]

/-- A point at height `z` above the mean water level is at height `z + h` above the bottom: `igam` 1 and 3 agree there.  With `igam` 2 and
depth `-z` every response, the surface elevation included, has the opposite sign. -/
theorem C214_igam (c : Conf) (h : ℝ) (hh : c.h = some h) (s : Sensor) (w k th : ℝ) :
    transfer { c with igam := 3, z := h + c.z } s w k th = transfer { c with igam := 1 } s w k th ∧
    transfer { c with igam := 2, z := -c.z } s w k th = -transfer { c with igam := 1 } s w k th := by
  have r3 : ∀ sa sb : ℤ, ratio { c with igam := 3, z := h + c.z } k sa sb = ratio { c with igam := 1 } k sa sb := by
    intro sa sb; simp [ratio, hh, zk]
  have r2 : ∀ sa sb : ℤ, ratio { c with igam := 2, z := -c.z } k sa sb = ratio { c with igam := 1 } k sa sb := by
    intro sa sb; simp [ratio, hh, zk]
  have e3 : ee { c with igam := 3, z := h + c.z } th k = ee { c with igam := 1 } th k := rfl
  have e2 : ee { c with igam := 2, z := -c.z } th k = ee { c with igam := 1 } th k := rfl
  have x3 : cthx { c with igam := 3, z := h + c.z } th = cthx { c with igam := 1 } th := rfl
  have x2 : cthx { c with igam := 2, z := -c.z } th = cthx { c with igam := 1 } th := rfl
  have y3 : cthy { c with igam := 3, z := h + c.z } th = cthy { c with igam := 1 } th := rfl
  have y2 : cthy { c with igam := 2, z := -c.z } th = cthy { c with igam := 1 } th := rfl
  constructor
  · cases s <;> simp [transfer, response, r3, e3, x3, y3]
  · cases s <;> simp [transfer, response, r2, e2, x2, y2]

/-- The sensor of surface elevation at the origin does not return the elevation itself, when `z` is measured downwards, but its negative. -/
theorem C214_elevation (c : Conf) (hx : c.x = 0) (hy : c.y = 0) (w k th : ℝ) :
    transfer c .n w k th = if c.igam = 2 then -1 else 1 := by
  simp [transfer, response, ee, hx, hy]

/-! ### C215: responses and their derivatives -/

/-- With the elevation proportional to `exp (-i w t)`, the sensors for velocities and accelerations are time derivatives: those of the
elevation, of the velocities, and of the displacements. -/
theorem C215_time (c : Conf) (w k th : ℝ) :
    transfer c .n_t w k th = -Complex.I * w * transfer c .n w k th ∧
    transfer c .n_tt w k th = -Complex.I * w * transfer c .n_t w k th ∧
    transfer c .u_t w k th = -Complex.I * w * transfer c .u w k th ∧
    transfer c .v_t w k th = -Complex.I * w * transfer c .v w k th ∧
    transfer c .w_t w k th = -Complex.I * w * transfer c .w w k th ∧
    transfer c .u w k th = -Complex.I * w * transfer c .x_p w k th ∧
    transfer c .v w k th = -Complex.I * w * transfer c .y_p w k th ∧
    transfer c .w w k th = -Complex.I * w * transfer c .z_p w k th := by
  have hI : Complex.I * Complex.I = -1 := Complex.I_mul_I
  refine ⟨?_, ?_, ?_, ?_, ?_, ?_, ?_, ?_⟩ <;> simp only [transfer, response]
  · push_cast [Option.getD_some]
    ring
  · push_cast [Option.getD_some]
    linear_combination (if c.igam = 2 then (-1 : ℂ) else 1) * (-(w : ℂ) ^ 2 * ee c th k) * hI
  all_goals
    rcases hr : ratio c k 1 (-1) with _ | r <;> rcases hr' : ratio c k (-1) (-1) with _ | r' <;>
      simp only [Option.map_none, Option.map_some, Option.getD_none, Option.getD_some] <;> push_cast <;> first
        | ring1
        | linear_combination (if c.igam = 2 then (-1 : ℂ) else 1) * (-(w : ℂ) ^ 2 * r' * ee c th k) * hI
        | linear_combination (if c.igam = 2 then (-1 : ℂ) else 1) * ((w : ℂ) * r * cthx c th * ee c th k) * hI
        | linear_combination (if c.igam = 2 then (-1 : ℂ) else 1) * ((w : ℂ) * r * cthy c th * ee c th k) * hI

/-- The sensors of slope and curvature are the derivatives of the elevation with respect to the position of the sensor. -/
theorem C215_slopes (c : Conf) (w k th : ℝ) :
    HasDerivAt (fun x => transfer { c with x := x } .n w k th) (transfer c .n_x w k th) c.x ∧
    HasDerivAt (fun y => transfer { c with y := y } .n w k th) (transfer c .n_y w k th) c.y ∧
    HasDerivAt (fun x => transfer { c with x := x } .n_x w k th) (transfer c .n_xx w k th) c.x ∧
    HasDerivAt (fun y => transfer { c with y := y } .n_y w k th) (transfer c .n_yy w k th) c.y ∧
    HasDerivAt (fun y => transfer { c with y := y } .n_x w k th) (transfer c .n_xy w k th) c.y ∧
    HasDerivAt (fun x => transfer { c with x := x } .n_y w k th) (transfer c .n_xy w k th) c.x := by
  have hI : Complex.I * Complex.I = -1 := Complex.I_mul_I
  have dx := ee_deriv_x c th k c.x
  have dy := ee_deriv_y c th k c.y
  refine ⟨?_, ?_, ?_, ?_, ?_, ?_⟩
  · refine (((dx.const_mul (((1 : ℝ) : ℝ) : ℂ))).const_mul (if c.igam = 2 then (-1 : ℂ) else 1)).congr_deriv ?_
    simp only [transfer, response, Option.getD_some]
    push_cast; ring
  · refine (((dy.const_mul (((1 : ℝ) : ℝ) : ℂ))).const_mul (if c.igam = 2 then (-1 : ℂ) else 1)).congr_deriv ?_
    simp only [transfer, response, Option.getD_some]
    push_cast; ring
  · refine (((dx.const_mul (Complex.I * cthx c th)).const_mul (k : ℂ)).const_mul (if c.igam = 2 then (-1 : ℂ) else 1)).congr_deriv ?_
    simp only [transfer, response, Option.getD_some]
    push_cast
    linear_combination (if c.igam = 2 then (-1 : ℂ) else 1) * ((k : ℂ) ^ 2 * cthx c th ^ 2 * ee c th k) * hI
  · refine (((dy.const_mul (Complex.I * cthy c th)).const_mul (k : ℂ)).const_mul (if c.igam = 2 then (-1 : ℂ) else 1)).congr_deriv ?_
    simp only [transfer, response, Option.getD_some]
    push_cast
    linear_combination (if c.igam = 2 then (-1 : ℂ) else 1) * ((k : ℂ) ^ 2 * cthy c th ^ 2 * ee c th k) * hI
  · refine (((dy.const_mul (Complex.I * cthx c th)).const_mul (k : ℂ)).const_mul (if c.igam = 2 then (-1 : ℂ) else 1)).congr_deriv ?_
    simp only [transfer, response, Option.getD_some]
    push_cast
    linear_combination (if c.igam = 2 then (-1 : ℂ) else 1) * ((k : ℂ) ^ 2 * cthx c th * cthy c th * ee c th k) * hI
  · refine (((dx.const_mul (Complex.I * cthy c th)).const_mul (k : ℂ)).const_mul (if c.igam = 2 then (-1 : ℂ) else 1)).congr_deriv ?_
    simp only [transfer, response, Option.getD_some]
    push_cast
    linear_combination (if c.igam = 2 then (-1 : ℂ) else 1) * ((k : ℂ) ^ 2 * cthx c th * cthy c th * ee c th k) * hI

end Wafo.Theory
