import Verif.Ship.Model
import Mathlib.Tactic.Linarith
import Mathlib.Tactic.FieldSimp

/-!
Properties of `getshipchar`: C87.
-/

namespace Wafo.Ship

/-- The documented keys. -/
def documentedKeys : List String := ["beam", "beamSTD", "draught", "draughtSTD", "length", "lengthSTD", "max_deadweight", "max_deadweightSTD",
  "propeller_diameter", "propeller_diameterSTD", "service_speed", "service_speedSTD"]

theorem pow_inv (x c : ℝ) (hx : 0 ≤ x) (hc : 0 < c) (e f : ℝ) (hef : e * f = 1) : c * ((x / c) ^ e) ^ f = x := by
  rw [← Real.rpow_mul (div_nonneg hx hc.le), hef, Real.rpow_one]
  field_simp

/-- The names accepted for a property: any name that starts with its first two letters. -/
def Names (name : String) (a b : Char) : Prop := name.toList.take 2 = [a, b]

theorem chars_keys (rnd : ℝ → ℝ) (dw : ℝ) : (characteristics rnd dw).map Prod.fst = documentedKeys := rfl

theorem setKey_keys (d : List (String × ℝ)) (k : String) (v : ℝ) (hk : k ∈ d.map Prod.fst) : (setKey d k v).map Prod.fst = d.map Prod.fst := by
  unfold setKey
  rw [if_pos (by simpa [List.contains_iff_mem] using hk), List.map_map]
  apply List.map_congr_left
  intro p _
  simp only [Function.comp_apply]
  split <;> rfl

/-- **C87 (length).**  For a property whose name starts with `le` the result has exactly the documented keys, standard deviation
0 for the length, and the length is the given value rounded to an integer. -/
theorem C87_length_partial (rnd : ℝ → ℝ) (name : String) (hn : Names name 'l' 'e') (x : ℝ) (hx : 0 ≤ x) :
    ∃ d, getshipchar rnd [(name, x)] = .ok d ∧ d.map Prod.fst = documentedKeys ∧ d.lookup "lengthSTD" = some 0 ∧
      d.lookup "length" = some (rnd x) := by
  unfold Names at hn
  refine ⟨setKey (characteristics rnd ((x / 3.45) ^ (2.5 : ℝ))) "lengthSTD" 0, ?_, ?_, ?_, ?_⟩
  · simp only [getshipchar, getMaxDeadweight, validProp, hn, if_true]
    rfl
  · rw [setKey_keys _ _ _ (by rw [chars_keys]; decide), chars_keys]
  · simp [setKey, characteristics, List.lookup]
  · simp only [setKey, characteristics]
    rw [pow_inv x 3.45 hx (by norm_num) 2.5 0.40 (by norm_num)]
    simp [List.lookup]

/-- **C87 (beam).** -/
theorem C87_beam_partial (rnd : ℝ → ℝ) (name : String) (hn : Names name 'b' 'e') (x : ℝ) (hx : 0 ≤ x) :
    ∃ d, getshipchar rnd [(name, x)] = .ok d ∧ d.map Prod.fst = documentedKeys ∧ d.lookup "beamSTD" = some 0 ∧
      d.lookup "beam" = some (rnd (x * 10) / 10) := by
  unfold Names at hn
  refine ⟨setKey (characteristics rnd ((x / 1.78) ^ (1 / 0.27 : ℝ))) "beamSTD" 0, ?_, ?_, ?_, ?_⟩
  · simp only [getshipchar, getMaxDeadweight, validProp, hn, if_true]
    rfl
  · rw [setKey_keys _ _ _ (by rw [chars_keys]; decide), chars_keys]
  · simp [setKey, characteristics, List.lookup]
  · simp only [setKey, characteristics]
    rw [pow_inv x 1.78 hx (by norm_num) (1 / 0.27) 0.27 (by norm_num)]
    simp

/-- **C87 (draught).** -/
theorem C87_draught_partial (rnd : ℝ → ℝ) (name : String) (hn : Names name 'd' 'r') (x : ℝ) (hx : 0 ≤ x) :
    ∃ d, getshipchar rnd [(name, x)] = .ok d ∧ d.map Prod.fst = documentedKeys ∧ d.lookup "draughtSTD" = some 0 ∧
      d.lookup "draught" = some (rnd (x * 10) / 10) := by
  unfold Names at hn
  refine ⟨setKey (characteristics rnd ((x / 0.8) ^ (1 / 0.24 : ℝ))) "draughtSTD" 0, ?_, ?_, ?_, ?_⟩
  · simp only [getshipchar, getMaxDeadweight, validProp, hn, if_true]
    rfl
  · rw [setKey_keys _ _ _ (by rw [chars_keys]; decide), chars_keys]
  · simp [setKey, characteristics, List.lookup]
  · simp only [setKey, characteristics]
    rw [show (0.80 : ℝ) = 0.8 by norm_num, pow_inv x 0.8 hx (by norm_num) (1 / 0.24) 0.24 (by norm_num)]
    simp [List.lookup]

/-- **C87 (service speed).** -/
theorem C87_speed_partial (rnd : ℝ → ℝ) (name : String) (hn : Names name 's' 'e') (x : ℝ) (hx : 0 ≤ x) :
    ∃ d, getshipchar rnd [(name, x)] = .ok d ∧ d.map Prod.fst = documentedKeys ∧ d.lookup "service_speedSTD" = some 0 ∧
      d.lookup "service_speed" = some (rnd (x * 10) / 10) := by
  unfold Names at hn
  refine ⟨setKey (characteristics rnd ((x / 1.14) ^ (1 / 0.21 : ℝ))) "service_speedSTD" 0, ?_, ?_, ?_, ?_⟩
  · simp only [getshipchar, getMaxDeadweight, validProp, hn, if_true]
    rfl
  · rw [setKey_keys _ _ _ (by rw [chars_keys]; decide), chars_keys]
  · simp [setKey, characteristics, List.lookup]
  · simp only [setKey, characteristics]
    rw [pow_inv x 1.14 hx (by norm_num) (1 / 0.21) 0.21 (by norm_num)]
    simp [List.lookup]

/-- **C87 (propeller diameter).**  The diameter is recomputed from the rounded length `(x/0.12)^(4/3)`; it is the given value if
that length is not changed by the rounding. -/
theorem C87_propeller_partial (rnd : ℝ → ℝ) (name : String) (hn : Names name 'p' 'r') (x : ℝ) (hx : 0 ≤ x) :
    ∃ d, getshipchar rnd [(name, x)] = .ok d ∧ d.map Prod.fst = documentedKeys ∧ d.lookup "propeller_diameterSTD" = some 0 ∧
      d.lookup "propeller_diameter" = some (0.12 * rnd ((x / 0.12) ^ (4 / 3 : ℝ)) ^ (3 / 4 : ℝ)) ∧
      (rnd ((x / 0.12) ^ (4 / 3 : ℝ)) = (x / 0.12) ^ (4 / 3 : ℝ) → d.lookup "propeller_diameter" = some x) := by
  unfold Names at hn
  have hL : 0 ≤ (x / 0.12) ^ (4 / 3 : ℝ) := Real.rpow_nonneg (div_nonneg hx (by norm_num)) _
  have hlook : (setKey (characteristics rnd (((x / 0.12) ^ (4 / 3 : ℝ) / 3.45) ^ (2.5 : ℝ))) "propeller_diameterSTD" 0).lookup
      "propeller_diameter" = some (0.12 * rnd ((x / 0.12) ^ (4 / 3 : ℝ)) ^ (3 / 4 : ℝ)) := by
    simp only [setKey, characteristics]
    rw [pow_inv _ 3.45 hL (by norm_num) 2.5 0.40 (by norm_num)]
    simp [List.lookup]
  refine ⟨setKey (characteristics rnd (((x / 0.12) ^ (4 / 3 : ℝ) / 3.45) ^ (2.5 : ℝ))) "propeller_diameterSTD" 0, ?_, ?_, ?_, hlook, ?_⟩
  · simp only [getshipchar, getMaxDeadweight, validProp, hn, if_true]
    rfl
  · rw [setKey_keys _ _ _ (by rw [chars_keys]; decide), chars_keys]
  · simp [setKey, characteristics, List.lookup]
  · intro h
    rw [hlook, h, pow_inv x 0.12 hx (by norm_num) (4 / 3) (3 / 4) (by norm_num)]

/-- **C87 (dead weight, refuted).**  For `max_deadweight` there is a thirteenth, misspelled key, and the standard deviation of the
given property is 10 % of its rounded value, not 0. -/
theorem C87_deadweight_refuted (rnd : ℝ → ℝ) (name : String) (hn : Names name 'm' 'a') (x : ℝ) :
    ∃ d, getshipchar rnd [(name, x)] = .ok d ∧ d.map Prod.fst = documentedKeys ++ ["max_deadweigthSTD"] ∧
      d.lookup "max_deadweight" = some (rnd x) ∧ d.lookup "max_deadweightSTD" = some (0.1 * rnd x) ∧
      d.lookup "max_deadweigthSTD" = some 0 := by
  unfold Names at hn
  have hs : setKey (characteristics rnd x) "max_deadweigthSTD" 0 = characteristics rnd x ++ [("max_deadweigthSTD", 0)] := by
    unfold setKey
    rw [chars_keys, if_neg (by decide)]
  refine ⟨characteristics rnd x ++ [("max_deadweigthSTD", 0)], ?_, ?_, ?_, ?_, ?_⟩
  · rw [← hs]
    simp only [getshipchar, getMaxDeadweight, validProp, hn, if_true]
    rfl
  · rw [List.map_append, chars_keys]; rfl
  · simp [characteristics, List.lookup]
  · simp [characteristics, List.lookup]
  · simp [characteristics, List.lookup]

/-- **C87 (value, refuted).**  A length that is not an integer is not returned (`np.round` returns integers). -/
theorem C87_value_refuted (rnd : ℝ → ℝ) (hr : ∀ v, ∃ k : ℤ, rnd v = k) (x : ℝ) (hx : 0 ≤ x) (hni : ∀ k : ℤ, x ≠ k) :
    ∃ d, getshipchar rnd [("length", x)] = .ok d ∧ d.lookup "length" ≠ some x := by
  obtain ⟨d, h1, -, -, h4⟩ := C87_length_partial rnd "length" (by unfold Names; decide) x hx
  refine ⟨d, h1, ?_⟩
  rw [h4]
  intro h
  obtain ⟨k, hk⟩ := hr x
  exact hni k (by rw [← hk]; exact (Option.some.inj h).symm)

/-- **C87 (rejected calls).**  No property or several raise ValueError; an unknown name raises KeyError. -/
theorem C87_rejected (rnd : ℝ → ℝ) (props : List (String × ℝ)) :
    (props.length ≠ 1 → getshipchar rnd props = .error .valueError) ∧
    (∀ name x, props = [(name, x)] → (getshipchar rnd props = .error .keyError ↔
      ∀ p ∈ [['l', 'e'], ['b', 'e'], ['d', 'r'], ['m', 'a'], ['s', 'e'], ['p', 'r']], name.toList.take 2 ≠ p)) := by
  constructor
  · intro h
    match props with
    | [] => rfl
    | [_] => simp at h
    | _ :: _ :: _ => rfl
  · rintro name x rfl
    simp only [getshipchar, getMaxDeadweight, validProp, List.forall_mem_cons, List.not_mem_nil, false_implies, implies_true, and_true]
    split_ifs with h1 h2 h3 h4 h5 h6 <;> simp [*]

/-- The hypotheses can be met; also `legroom` counts as a length. -/
example : Names "length" 'l' 'e' ∧ Names "legroom" 'l' 'e' ∧ Names "beam" 'b' 'e' ∧ Names "max_deadweight" 'm' 'a' ∧
    Names "propeller_diameter" 'p' 'r' ∧ Names "service_speed" 's' 'e' ∧ Names "draught" 'd' 'r' ∧ (∃ x : ℝ, 0 ≤ x ∧ ∀ k : ℤ, x ≠ k) := by
  refine ⟨?_, ?_, ?_, ?_, ?_, ?_, ?_, 1 / 2, by norm_num, fun k hk => ?_⟩
  any_goals (unfold Names; decide)
  have : (1 : ℝ) = ((2 * k : ℤ) : ℝ) := by push_cast; linarith
  have : (1 : ℤ) = 2 * k := by exact_mod_cast this
  omega

end Wafo.Ship
