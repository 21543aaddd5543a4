import Mathlib.Data.List.Infix
import Verif.SpecD.Lemmas
import Verif.SpecD.Model2
import Verif.Spread.Lemmas

/-! Properties C192-C194: moments and rotation of directional spectra. -/

set_option linter.unusedSectionVars false

namespace Wafo.SpecD
open Cov Finset

noncomputable section

/-! ### Specification -/

/-- The integral over the angles of the spectrum times powers of the cosine and the sine of the angle, for the frequency with index `j`. -/
def overAngles (I : Quad) (s : Spec2) (p q : ℕ) (j : ℕ) : ℝ :=
  I (List.zipWith (fun (row : List ℝ) t => row.getD j 0 * (Real.cos (t - s.phi) ^ p * Real.sin (t - s.phi) ^ q)) s.data s.args1)
    (s.args1.map (· - s.phi))

/-- The moment of order `p` in `x`, `q` in `y` and `r` in `t`: the integral of `kx ** p * ky ** q * w ** r * S`, where
`kx = w ** 2 / gx * cos(theta)` and `ky = w ** 2 / gy * sin(theta)`. -/
def mom2 (I : Quad) (s : Spec2) (gx gy : ℝ) (p q r : ℕ) : ℝ :=
  I ((List.range s.args0.length).map fun j =>
    (s.args0.getD j 0 ^ 2 / gx) ^ p * (s.args0.getD j 0 ^ 2 / gy) ^ q * s.args0.getD j 0 ^ r * overAngles I s p q j) s.args0

/-- The number of letters `c` in a name such as `mxxt`. -/
def letters (c : Char) (name : String) : ℕ := (name.toList.drop 1).count c

/-- The names of the moments up to order `nr`, with all variables. -/
def allNames (nr : ℕ) : List String :=
  if nr = 0 then ["m0"]
  else if nr = 1 then ["m0", "mx", "my", "mt"]
  else if nr ≤ 3 then ["m0", "mx", "my", "mt", "mxx", "myy", "mtt", "mxy", "mxt", "myt"]
  else ["m0", "mx", "my", "mt", "mxx", "myy", "mtt", "mxy", "mxt", "myt", "mxxxx", "myyyy", "mtttt", "mxxxy", "mxxyy", "mxyyy",
    "mxxxt", "mxxtt", "mxttt", "myyyt", "myytt", "myttt", "mxxyt", "mxyyt", "mxytt"]

/-- The variables that are asked for. -/
def asked (nr : ℕ) : Option (List Char) → List Char
  | none => if nr ≤ 1 then ['x'] else ['x', 't']
  | some v => v.map Char.toLower

/-! ### Moments -/

theorem only_mem {α : Type} (b : Bool) (l : List α) (p : α) (h : p ∈ (if b then l else [])) : p ∈ l := by
  split at h
  · exact h
  · simp at h

theorem turnInt_eq (I : Quad) (s : Spec2) (c : ℝ → ℝ) (p q : ℕ) (hc : ∀ t, c t = Real.cos t ^ p * Real.sin t ^ q) (j : ℕ) :
    turnInt I s.data (s.args1.map (· - s.phi)) c j = overAngles I s p q j := by
  unfold turnInt overAngles
  congr 1
  rw [List.zipWith_map_right]
  simp only [hc]

/-- The value of a pair is the moment that its name says. -/
def Named (I : Quad) (s : Spec2) (gx gy : ℝ) (p : String × ℝ) : Prop :=
  p.2 = mom2 I s gx gy (letters 'x' p.1) (letters 'y' p.1) (letters 't' p.1)

/-- Every value has its name: the number of letters `x`, `y` and `t` are the orders of the moment; the only exception is `myt`. -/
theorem C192_values_partial (I : Quad) (s : Spec2) (gx gy : ℝ) (nr : ℕ) (vari : Option (List Char)) (out : List (String × ℝ))
    (h : moment2 I s gx gy nr vari = .ok out) :
    ∀ p ∈ out, p.1 ≠ "myt" → p.2 = mom2 I s gx gy (letters 'x' p.1) (letters 'y' p.1) (letters 't' p.1) := by
  unfold moment2 at h
  split at h
  · exact absurd h (by simp)
  · split at h
    · exact absurd h (by simp)
    · split at h
      · exact absurd h (by simp)
      · simp only [] at h
        split at h
        · exact absurd h (by simp)
        · have h := (Except.ok.inj h).symm
          subst h
          intro p hp hne
          have key : ∀ (name : String) (c : ℝ → ℝ) (a b r : ℕ) (f : ℝ → ℝ → ℝ → ℕ → ℝ),
              (letters 'x' name = a ∧ letters 'y' name = b ∧ letters 't' name = r) → (∀ t, c t = Real.cos t ^ a * Real.sin t ^ b) →
              (∀ kx ky w j, f kx ky w j = kx ^ a * ky ^ b * w ^ r * turnInt I s.data (s.args1.map (· - s.phi)) c j) →
              Named I s gx gy (name, freqInt I s gx gy f) := by
            intro name c a b r f hn hc hf
            unfold Named
            simp only []
            rw [hn.1, hn.2.1, hn.2.2]
            unfold mom2 freqInt
            simp only [hf, turnInt_eq I s c a b hc]
          change Named I s gx gy p
          rw [List.cons_append, List.cons_append, List.mem_cons, List.mem_append, List.mem_append] at hp
          rcases hp with rfl | (hp | hp) | hp
          · exact key "m0" (fun _ => 1) 0 0 0 _ (by decide) (fun t => by ring) (fun kx ky w j => by ring)
          · have hp := only_mem _ _ _ hp
            simp only [List.mem_append] at hp
            rcases hp with (hp | hp) | hp <;> (have hp := only_mem _ _ _ hp; simp only [List.mem_singleton] at hp; subst hp)
            · exact key "mx" (fun t => Real.cos t) 1 0 0 _ (by decide) (fun t => by ring) (fun kx ky w j => by ring)
            · exact key "my" (fun t => Real.sin t) 0 1 0 _ (by decide) (fun t => by ring) (fun kx ky w j => by ring)
            · exact key "mt" (fun _ => 1) 0 0 1 _ (by decide) (fun t => by ring) (fun kx ky w j => by ring)
          · have hp := only_mem _ _ _ hp
            simp only [List.mem_append] at hp
            rcases hp with ((((hp | hp) | hp) | hp) | hp) | hp <;>
              (have hp := only_mem _ _ _ hp; simp only [List.mem_singleton] at hp; subst hp)
            · exact key "mxx" (fun t => Real.cos t ^ 2) 2 0 0 _ (by decide) (fun t => by ring) (fun kx ky w j => by ring)
            · exact key "myy" (fun t => Real.sin t ^ 2) 0 2 0 _ (by decide) (fun t => by ring) (fun kx ky w j => by ring)
            · exact key "mtt" (fun _ => 1) 0 0 2 _ (by decide) (fun t => by ring) (fun kx ky w j => by ring)
            · exact key "mxy" (fun t => Real.cos t * Real.sin t) 1 1 0 _ (by decide) (fun t => by ring) (fun kx ky w j => by ring)
            · exact key "mxt" (fun t => Real.cos t) 1 0 1 _ (by decide) (fun t => by ring) (fun kx ky w j => by ring)
            · exact absurd rfl hne
          · have hp := only_mem _ _ _ hp
            simp only [List.mem_append] at hp
            rcases hp with (((((hp | hp) | hp) | hp) | hp) | hp) | hp <;>
              (have hp := only_mem _ _ _ hp; simp only [List.mem_cons, List.not_mem_nil, or_false] at hp)
            · subst hp; exact key "mxxxx" (fun t => Real.cos t ^ 4) 4 0 0 _ (by decide) (fun t => by ring) (fun kx ky w j => by ring)
            · subst hp; exact key "myyyy" (fun t => Real.sin t ^ 4) 0 4 0 _ (by decide) (fun t => by ring) (fun kx ky w j => by ring)
            · subst hp; exact key "mtttt" (fun _ => 1) 0 0 4 _ (by decide) (fun t => by ring) (fun kx ky w j => by ring)
            · rcases hp with rfl | rfl | rfl
              · exact key "mxxxy" (fun t => Real.cos t ^ 3 * Real.sin t) 3 1 0 _ (by decide) (fun t => by ring) (fun kx ky w j => by ring)
              · exact key "mxxyy" (fun t => Real.cos t ^ 2 * Real.sin t ^ 2) 2 2 0 _ (by decide) (fun t => by ring) (fun kx ky w j => by ring)
              · exact key "mxyyy" (fun t => Real.cos t * Real.sin t ^ 3) 1 3 0 _ (by decide) (fun t => by ring) (fun kx ky w j => by ring)
            · rcases hp with rfl | rfl | rfl
              · exact key "mxxxt" (fun t => Real.cos t ^ 3) 3 0 1 _ (by decide) (fun t => by ring) (fun kx ky w j => by ring)
              · exact key "mxxtt" (fun t => Real.cos t ^ 2) 2 0 2 _ (by decide) (fun t => by ring) (fun kx ky w j => by ring)
              · exact key "mxttt" (fun t => Real.cos t) 1 0 3 _ (by decide) (fun t => by ring) (fun kx ky w j => by ring)
            · rcases hp with rfl | rfl | rfl
              · exact key "myyyt" (fun t => Real.sin t ^ 3) 0 3 1 _ (by decide) (fun t => by ring) (fun kx ky w j => by ring)
              · exact key "myytt" (fun t => Real.sin t ^ 2) 0 2 2 _ (by decide) (fun t => by ring) (fun kx ky w j => by ring)
              · exact key "myttt" (fun t => Real.sin t) 0 1 3 _ (by decide) (fun t => by ring) (fun kx ky w j => by ring)
            · rcases hp with rfl | rfl | rfl
              · exact key "mxxyt" (fun t => Real.cos t ^ 2 * Real.sin t) 2 1 1 _ (by decide) (fun t => by ring) (fun kx ky w j => by ring)
              · exact key "mxyyt" (fun t => Real.cos t * Real.sin t ^ 2) 1 2 1 _ (by decide) (fun t => by ring) (fun kx ky w j => by ring)
              · exact key "mxytt" (fun t => Real.cos t * Real.sin t) 1 1 2 _ (by decide) (fun t => by ring) (fun kx ky w j => by ring)

/-- A directional spectrum on two frequencies and two angles. -/
def small : Spec2 := { args0 := [0, 1], args1 := [0, Real.pi], isList := false, data := [[1, 1], [0, 0]], phi := 0, type := "dir".toList }

/-- The moments that are returned and their order: those of the variables asked for, without moments of order three.  Asking for `y` and
`t` without `x` fails if second order moments are wanted. -/
theorem C192_names (I : Quad) (s : Spec2) (gx gy : ℝ) (nr : ℕ) (vari : Option (List Char)) (ht : s.type = "dir".toList ∨ s.type = "encdir".toList)
    (hv : vari ≠ some []) (hy : ¬ (1 < nr ∧ 'y' ∈ asked nr vari ∧ 't' ∈ asked nr vari ∧ 'x' ∉ asked nr vari)) :
    ∃ out, moment2 I s gx gy nr vari = .ok out ∧
      out.map Prod.fst = (allNames nr).filter fun name => (name.toList.drop 1).all fun c => c == '0' || decide (c ∈ asked nr vari) := by
  have h1 : variOf nr vari = .ok (asked nr vari) := by
    unfold variOf asked
    cases vari with
    | none => simp only []; split <;> rfl
    | some v =>
      have : v ≠ [] := fun h => hv (by rw [h])
      simp only [if_neg this]
  have h2 : ¬ s.type ∉ ["dir".toList, "encdir".toList, "k2d".toList] := by
    rcases ht with h | h <;> rw [h] <;> decide
  have h3 : ¬ s.type = "k2d".toList := by rcases ht with h | h <;> rw [h] <;> decide
  unfold moment2
  rw [if_neg h2, h1]
  simp only []
  rw [if_neg h3]
  generalize asked nr vari = v at hy ⊢
  rw [if_neg (by simpa using hy)]
  refine ⟨_, rfl, ?_⟩
  unfold allNames
  have hn : nr = 0 ∨ nr = 1 ∨ (1 < nr ∧ nr ≤ 3) ∨ 3 < nr := by omega
  rcases hn with rfl | rfl | hn | hn
  · simp
  · by_cases hx : 'x' ∈ v <;> by_cases hy : 'y' ∈ v <;> by_cases ht : 't' ∈ v <;> simp [hx, hy, ht]
  · have e0 : nr ≠ 0 := by omega
    have e1 : nr ≠ 1 := by omega
    have e2 : 0 < nr := by omega
    have e3 : ¬ 3 < nr := by omega
    by_cases hx : 'x' ∈ v <;> by_cases hy : 'y' ∈ v <;> by_cases ht : 't' ∈ v <;> simp [hx, hy, ht, e0, e1, e2, e3, hn.1, hn.2]
  · have e0 : nr ≠ 0 := by omega
    have e1 : nr ≠ 1 := by omega
    have e2 : 0 < nr := by omega
    have e3 : ¬ nr ≤ 3 := by omega
    have e4 : 1 < nr := by omega
    by_cases hx : 'x' ∈ v <;> by_cases hy : 'y' ∈ v <;> by_cases ht : 't' ∈ v <;> simp [hx, hy, ht, e0, e1, e2, e3, e4, hn]

example : (allNames 2).filter (fun name => (name.toList.drop 1).all fun c => c == '0' || decide (c ∈ asked 2 (some ['T', 'x']))) =
    ["m0", "mx", "mt", "mxx", "mtt", "mxt"] := by decide

/-- Asking for `y` and `t` without `x` raises an UnboundLocalError, although the moments are defined. -/
theorem C192_unbound_refuted (I : Quad) (s : Spec2) (gx gy : ℝ) (nr : ℕ) (hnr : 1 < nr) (v : List Char)
    (ht : s.type = "dir".toList ∨ s.type = "encdir".toList)
    (hv : 'y' ∈ v.map Char.toLower ∧ 't' ∈ v.map Char.toLower ∧ 'x' ∉ v.map Char.toLower) :
    moment2 I s gx gy nr (some v) = .error .unbound := by
  have h1 : variOf nr (some v) = .ok (v.map Char.toLower) := by
    unfold variOf
    have : v ≠ [] := by rintro rfl; simp at hv
    simp only [if_neg this]
  have h2 : ¬ s.type ∉ ["dir".toList, "encdir".toList, "k2d".toList] := by
    rcases ht with h | h <;> rw [h] <;> decide
  have h3 : ¬ s.type = "k2d".toList := by rcases ht with h | h <;> rw [h] <;> decide
  unfold moment2
  rw [if_neg h2, h1]
  simp only []
  rw [if_neg h3, if_pos]
  exact ⟨hnr, decide_eq_true hv.1, decide_eq_true hv.2.1, decide_eq_false hv.2.2⟩

example : 'y' ∈ ['y', 't'].map Char.toLower ∧ 't' ∈ ['y', 't'].map Char.toLower ∧ 'x' ∉ ['y', 't'].map Char.toLower := by decide

/-- Wave number spectra and spectra of other types have no moments. -/
theorem C192_types_refuted (I : Quad) (s : Spec2) (gx gy : ℝ) (nr : ℕ) (vari : Option (List Char))
    (ht : s.type ≠ "dir".toList ∧ s.type ≠ "encdir".toList) : ∃ e, moment2 I s gx gy nr vari = .error e := by
  unfold moment2
  by_cases h : s.type = "k2d".toList
  · rw [if_neg (by rw [h]; decide)]
    cases variOf nr vari with
    | error e => exact ⟨e, rfl⟩
    | ok v => exact ⟨.attribute, if_pos h⟩
  · refine ⟨.value, if_pos ?_⟩
    simp only [List.mem_cons, List.not_mem_nil, or_false]
    tauto

/-- The value called `myt` is not that moment: the cosine of the angle is used in place of the sine. -/
theorem C192_myt_refuted (I : Quad) (s : Spec2) (gx gy : ℝ) (ht : s.type = "dir".toList) :
    (∃ out, moment2 I s gx gy 2 (some ['x', 'y', 't']) = .ok out ∧
      ("myt", I ((List.range s.args0.length).map fun j => s.args0.getD j 0 ^ 2 / gy * s.args0.getD j 0 * overAngles I s 1 0 j) s.args0) ∈ out) ∧
    ∃ out v, moment2 trap small 1 1 2 (some ['x', 'y', 't']) = .ok out ∧ ("myt", v) ∈ out ∧ v ≠ mom2 trap small 1 1 0 1 1 := by
  have key : ∀ (I : Quad) (s : Spec2) (gx gy : ℝ), s.type = "dir".toList →
      ∃ out, moment2 I s gx gy 2 (some ['x', 'y', 't']) = .ok out ∧
      ("myt", I ((List.range s.args0.length).map fun j => s.args0.getD j 0 ^ 2 / gy * s.args0.getD j 0 * overAngles I s 1 0 j) s.args0) ∈ out := by
    intro I s gx gy ht
    unfold moment2
    rw [if_neg (by rw [ht]; decide)]
    simp only [variOf, if_neg (by decide : ¬ ['x', 'y', 't'] = [])]
    rw [if_neg (by rw [ht]; decide), if_neg (by decide)]
    refine ⟨_, rfl, ?_⟩
    have e : ∀ j, turnInt I s.data (s.args1.map (· - s.phi)) (fun t => Real.cos t) j = overAngles I s 1 0 j :=
      turnInt_eq I s _ 1 0 (fun t => by ring)
    simp [freqInt, e]
  refine ⟨key I s gx gy ht, ?_⟩
  obtain ⟨out, h1, h2⟩ := key trap small 1 1 rfl
  refine ⟨out, _, h1, h2, ?_⟩
  have hpi := Real.pi_pos
  have ec : ∀ j < 2, overAngles trap small 1 0 j = Real.pi / 2 := by
    intro j hj
    interval_cases j <;> simp [overAngles, small, trap, trapW, sum_range_succ]
  have es : ∀ j < 2, overAngles trap small 0 1 j = 0 := by
    intro j hj
    interval_cases j <;> simp [overAngles, small, trap, trapW, sum_range_succ]
  have e1 : (List.range small.args0.length).map (fun j => small.args0.getD j 0 ^ 2 / 1 * small.args0.getD j 0 * overAngles trap small 1 0 j) =
      [0, Real.pi / 2] := by
    have h0 := ec 0 (by norm_num)
    have h1 := ec 1 (by norm_num)
    have a0 : small.args0.getD 0 0 = 0 := rfl
    have a1 : small.args0.getD 1 0 = 1 := rfl
    have : small.args0.length = 2 := rfl
    rw [this]
    simp only [List.range_succ, List.range_zero, List.nil_append, List.map_cons, List.map_nil, List.cons_append, h0, h1, a0, a1]
    norm_num
  have e2 : mom2 trap small 1 1 0 1 1 = 0 := by
    unfold mom2
    have : (List.range small.args0.length).map (fun j => (small.args0.getD j 0 ^ 2 / 1) ^ 0 * (small.args0.getD j 0 ^ 2 / 1) ^ 1 *
        small.args0.getD j 0 ^ 1 * overAngles trap small 0 1 j) = [0, 0] := by
      have h0 := es 0 (by norm_num)
      have h1 := es 1 (by norm_num)
      have : small.args0.length = 2 := rfl
      rw [this]
      simp [List.range_succ, h0, h1]
    rw [this]
    simp [trap, small, sum_range_succ]
  rw [e1, e2]
  simp [trap, small, sum_range_succ, trapW]

/-- The moments take the frequencies as angular: for a spectrum in hertz, the moment `mt` is smaller by the factor `2 * pi`. -/
theorem C192_hertz_refuted (I : Quad) (R : Rule I) (s : Spec2) (gx gy : ℝ) (hr : s.data.length = s.args1.length)
    (hc : ∀ row ∈ s.data, row.length = s.args0.length) :
    mom2 I { s with args0 := s.args0.map (fun v => (1 / (2 * Real.pi)) * v), data := s.data.map fun row => row.map fun v => 2 * Real.pi * v }
      gx gy 0 0 1 = mom2 I s gx gy 0 0 1 / (2 * Real.pi) := by
  have hpi : (0 : ℝ) < 2 * Real.pi := by positivity
  have hlen : ∀ j (s : Spec2), s.data.length = s.args1.length →
      overAngles I s 0 0 j = ∑ i ∈ range s.args1.length, R.w (s.args1.map (· - s.phi)) i * (s.data.getD i []).getD j 0 := by
    intro j s hr
    unfold overAngles
    rw [R.eq _ _ (by simp [hr]), List.length_map]
    refine sum_congr rfl fun i hi => ?_
    have hi := mem_range.1 hi
    congr 1
    rw [List.getD_eq_getElem?_getD, List.getElem?_zipWith, List.getElem?_eq_getElem (by omega : i < s.data.length),
      List.getElem?_eq_getElem hi, List.getD_eq_getElem _ _ (by omega : i < s.data.length)]
    simp
  have hang : ∀ j < s.args0.length, overAngles I { s with
      args0 := s.args0.map (fun v => (1 / (2 * Real.pi)) * v), data := s.data.map fun row => row.map fun v => 2 * Real.pi * v } 0 0 j =
      2 * Real.pi * overAngles I s 0 0 j := by
    intro j hj
    rw [hlen j s hr, hlen j _ (by simpa using hr), mul_sum]
    refine sum_congr rfl fun i hi => ?_
    have hi := mem_range.1 hi
    simp only [] at hi ⊢
    have hid : i < s.data.length := by omega
    have hrow : (s.data[i]).length = s.args0.length := hc _ (List.getElem_mem _)
    have e1 : (s.data.map fun row => row.map fun v => 2 * Real.pi * v).getD i [] = (s.data[i]).map fun v => 2 * Real.pi * v := by
      rw [List.getD_eq_getElem _ _ (by simpa using hid), List.getElem_map]
    have e2 : s.data.getD i [] = s.data[i] := List.getD_eq_getElem _ _ hid
    rw [e1, e2, List.getD_eq_getElem _ _ (by rw [List.length_map]; omega), List.getElem_map, List.getD_eq_getElem _ _ (by omega)]
    ring
  unfold mom2
  rw [R.eq _ _ (by simp), R.eq _ _ (by simp), sum_div]
  simp only [List.length_map]
  refine sum_congr rfl fun j hj => ?_
  have hj := mem_range.1 hj
  rw [R.scale _ (by positivity) _ _ hj, List.getD_eq_getElem _ _ (by simpa using hj), List.getD_eq_getElem _ _ (by simpa using hj)]
  simp only [List.getElem_map, List.getElem_range]
  rw [hang j hj, getD_map_lt _ _ _ hj]
  field_simp

/-! ### Rotation -/

/-- The angles of the spectrum, measured from the positive `x` axis, with the densities: the documented meaning of the attribute `phi`. -/
def directions (s : Spec2) : List (ℝ × List ℝ) := List.zip (s.args0.map (· - s.phi)) s.data

/-- Two angles are the same direction. -/
def SameDir (x y : ℝ) : Prop := ∃ n : ℤ, x = y + n * (2 * Real.pi)

/-- A spectrum with angles first, as `rotate` expects them. -/
structure Polar (s : Spec2) (t0 : ℝ) (l : List ℝ) : Prop where
  dir : s.type = "dir".toList ∨ s.type = "encdir".toList
  list : s.isList = true
  args : s.args0 = t0 :: l
  data : s.data.length = s.args0.length

theorem stype_dir (s : Spec2) (h : s.type = "dir".toList ∨ s.type = "encdir".toList) :
    (s.type.map Char.toLower).drop (s.type.length - 3) = "dir".toList := by
  rcases h with h | h <;> rw [h] <;> decide

theorem rotate_plain (gridK : Spec2 → Spec2 × Option Err2) (s : Spec2) (t0 : ℝ) (l : List ℝ) (g : Polar s t0 l) (phi : ℝ) :
    rotate gridK s phi false = ({ s with args0 := s.args0.map (· - (t0 + Real.pi)),
                                         phi := Spread.wrapAngle (Spread.wrapAngle (s.phi + phi) + (t0 + Real.pi)) }, none) := by
  unfold rotate
  simp only []
  rw [if_pos (stype_dir s g.dir), g.args]
  simp only []
  rw [if_neg (by rw [g.list]; decide), if_neg (by simp)]

/-- Rotation of a spectrum whose angles start at `-pi`: the directions turn by the given angle, the densities are kept, and the new
attribute `phi` lies in `[-pi, pi)`. -/
theorem C193_turn_partial (gridK : Spec2 → Spec2 × Option Err2) (s : Spec2) (l : List ℝ) (g : Polar s (-Real.pi) l) (phi : ℝ) :
    ∃ out, rotate gridK s phi false = (out, none) ∧ out.args0 = s.args0 ∧ out.args1 = s.args1 ∧ out.data = s.data ∧
      -Real.pi ≤ out.phi ∧ out.phi < Real.pi ∧
      List.Forall₂ (fun p q => q.2 = p.2 ∧ SameDir q.1 (p.1 - phi)) (directions s) (directions out) := by
  refine ⟨_, rotate_plain gridK s _ l g phi, ?_, rfl, rfl, (Spread.wrapAngle_range _).1, (Spread.wrapAngle_range _).2, ?_⟩
  · simp
  · obtain ⟨n, hn⟩ := Spread.wrapAngle_congr (s.phi + phi)
    obtain ⟨m, hm⟩ := Spread.wrapAngle_congr (Spread.wrapAngle (s.phi + phi) + (-Real.pi + Real.pi))
    unfold directions
    rw [List.forall₂_iff_get]
    refine ⟨by simp, fun i h1 h2 => ?_⟩
    simp only [List.get_eq_getElem, List.getElem_zip, List.getElem_map]
    refine ⟨trivial, -n - m, ?_⟩
    push_cast
    linear_combination (-1) * hm - hn

example : ∃ s l, Polar s (-Real.pi) l ∧ l ≠ [] :=
  ⟨{ args0 := [-Real.pi, 0], args1 := [1], isList := true, data := [[1], [2]], phi := 0, type := "dir".toList }, [0],
    ⟨Or.inl rfl, rfl, rfl, rfl⟩, by simp⟩

/-- In general the directions turn by `2 * (theta[0] + pi)` too much; if the angles start at `-pi / 2`, already a rotation by zero turns
the spectrum around. -/
theorem C193_offset_refuted (gridK : Spec2 → Spec2 × Option Err2) (s : Spec2) (t0 : ℝ) (l : List ℝ) (g : Polar s t0 l) (phi : ℝ) :
    (∃ out, rotate gridK s phi false = (out, none) ∧
      List.Forall₂ (fun p q => q.2 = p.2 ∧ SameDir q.1 (p.1 - phi - 2 * (t0 + Real.pi))) (directions s) (directions out)) ∧
    (t0 = -Real.pi / 2 → ∃ out, rotate gridK s 0 false = (out, none) ∧
      ∀ p q, (directions s)[0]? = some p → (directions out)[0]? = some q → ¬ SameDir q.1 p.1) := by
  have key : ∀ phi : ℝ, ∃ out, rotate gridK s phi false = (out, none) ∧
      List.Forall₂ (fun p q => q.2 = p.2 ∧ SameDir q.1 (p.1 - phi - 2 * (t0 + Real.pi))) (directions s) (directions out) := by
    intro phi
    refine ⟨_, rotate_plain gridK s _ l g phi, ?_⟩
    obtain ⟨n, hn⟩ := Spread.wrapAngle_congr (s.phi + phi)
    obtain ⟨m, hm⟩ := Spread.wrapAngle_congr (Spread.wrapAngle (s.phi + phi) + (t0 + Real.pi))
    unfold directions
    rw [List.forall₂_iff_get]
    refine ⟨by simp, fun i h1 h2 => ?_⟩
    simp only [List.get_eq_getElem, List.getElem_zip, List.getElem_map]
    refine ⟨trivial, -n - m, ?_⟩
    push_cast
    linear_combination (-1) * hm - hn
  refine ⟨key phi, fun ht => ?_⟩
  obtain ⟨out, ho, hf⟩ := key 0
  refine ⟨out, ho, fun p q hp hq => ?_⟩
  rw [List.forall₂_iff_get] at hf
  obtain ⟨h1, e1⟩ := List.getElem?_eq_some_iff.1 hp
  obtain ⟨h2, e2⟩ := List.getElem?_eq_some_iff.1 hq
  have := (hf.2 0 h1 h2).2
  simp only [List.get_eq_getElem] at this
  rw [e1, e2, ht] at this
  rintro ⟨n, hn⟩
  obtain ⟨m, hm⟩ := this
  have hpi := Real.pi_pos
  have h3 : (2 * (m - n) : ℝ) * Real.pi = 1 * Real.pi := by
    rw [hn] at hm
    linarith
  have h4 := mul_right_cancel₀ hpi.ne' h3
  have h5 : 2 * (m - n) = 1 := by exact_mod_cast h4
  omega

example : ∃ s l, Polar s (-Real.pi / 2) l ∧ ∃ p, (directions s)[0]? = some p :=
  ⟨{ args0 := [-Real.pi / 2, 0], args1 := [1], isList := true, data := [[1], [2]], phi := 0, type := "dir".toList }, [0],
    ⟨Or.inl rfl, rfl, rfl, rfl⟩, _, rfl⟩

/-- A spectrum made by `tospecdata2d` has its arguments in a tuple: the rotation raises a TypeError, after changing the attribute `phi`.
If the arguments are in a list in the same order, frequencies first, then the frequencies are moved and start at `-pi`, and the angles are
kept. -/
theorem C193_layout_refuted (gridK : Spec2 → Spec2 × Option Err2) (s : Spec2) (ht : s.type = "dir".toList) (w0 : ℝ) (l : List ℝ)
    (ha : s.args0 = w0 :: l) (phi : ℝ) (rotateGrid : Bool) :
    (s.isList = false → rotate gridK s phi rotateGrid = ({ s with phi := Spread.wrapAngle (s.phi + phi) }, some .type)) ∧
    (s.isList = true → ∃ out, rotate gridK s phi false = (out, none) ∧ out.args0.headD 0 = -Real.pi ∧ out.args1 = s.args1) := by
  constructor
  · intro h
    unfold rotate
    simp only []
    rw [if_pos (stype_dir s (Or.inl ht)), ha]
    simp only []
    rw [if_pos h]
  · intro h
    have e : (s.type.map Char.toLower).drop (s.type.length - 3) = "dir".toList := stype_dir s (Or.inl ht)
    unfold rotate
    simp only []
    rw [if_pos e, ha]
    simp only []
    rw [if_neg (by rw [h]; decide), if_neg (by simp)]
    exact ⟨_, rfl, by simp, rfl⟩

/-- Spectra of other types cannot be rotated, but their attribute `phi` is changed before the error. -/
theorem C193_types (gridK : Spec2 → Spec2 × Option Err2) (s : Spec2) (phi : ℝ) (rotateGrid : Bool) :
    (s.type = "freq".toList → rotate gridK s phi rotateGrid = ({ s with phi := Spread.wrapAngle (s.phi + phi) }, some .value)) ∧
    (s.type = "k2d".toList → rotate gridK s phi false = ({ s with phi := Spread.wrapAngle (s.phi + phi) }, none)) := by
  constructor
  · intro h
    unfold rotate
    simp only []
    rw [if_neg (by rw [h]; decide), if_neg (by rw [h]; decide)]
  · intro h
    unfold rotate
    simp only []
    rw [if_neg (by rw [h]; decide), if_pos (by rw [h]; decide), if_neg (by simp)]

/-- Physical rotation of the grid, if the angles start at `-pi` and do not end where they start: the directions with their densities are
the turned ones in increasing order, in `[-pi, pi)`, and `phi` is zero. -/
theorem C194_grid_partial (gridK : Spec2 → Spec2 × Option Err2) (s : Spec2) (l : List ℝ) (g : Polar s (-Real.pi) l) (phi : ℝ)
    (hopen : ¬ SameDir (-Real.pi) ((-Real.pi :: l).getLastD 0)) (hphi : ¬ SameDir (s.phi + phi) 0) :
    ∃ out, rotate gridK s phi true = (out, none) ∧ out.phi = 0 ∧ out.args1 = s.args1 ∧ out.data.length = s.data.length ∧
      out.args0.Pairwise (· ≤ ·) ∧ (∀ t ∈ out.args0, -Real.pi ≤ t ∧ t < Real.pi) ∧
      ∃ turned : List (ℝ × List ℝ), turned.Perm (directions out) ∧
        List.Forall₂ (fun p q => q.2 = p.2 ∧ SameDir q.1 (p.1 - phi)) (directions s) turned := by
  obtain ⟨n, hn⟩ := Spread.wrapAngle_congr (s.phi + phi)
  have hwrap : Spread.wrapAngle (Spread.wrapAngle (s.phi + phi) + (-Real.pi + Real.pi)) = Spread.wrapAngle (s.phi + phi) := by
    rw [neg_add_cancel, add_zero]
    exact Spread.wrapAngle_id (Spread.wrapAngle_range _).1 (Spread.wrapAngle_range _).2
  have hne : Spread.wrapAngle (s.phi + phi) ≠ 0 := by
    intro h0
    apply hphi
    refine ⟨-n, ?_⟩
    rw [h0] at hn
    push_cast
    linarith
  have hclosed : ¬ Spread.pmod (-Real.pi - (-Real.pi :: l).getLastD 0) (2 * Real.pi) = 0 := by
    intro h0
    apply hopen
    unfold Spread.pmod at h0
    exact ⟨_, by linarith⟩
  unfold rotate
  simp only []
  rw [if_pos (stype_dir s g.dir), g.args]
  simp only []
  rw [if_neg (by rw [g.list]; decide), hwrap, if_pos ⟨trivial, hne⟩, if_neg hclosed, if_neg hclosed]
  set f : ℝ → ℝ := fun t => Spread.wrapAngle (t - Spread.wrapAngle (s.phi + phi)) with hf
  have hperm := List.perm_insertionSort (fun p q : ℝ × List ℝ => p.1 ≤ q.1) (List.zip ((-Real.pi :: l).map f) s.data)
  have hsort := List.pairwise_insertionSort (fun p q : ℝ × List ℝ => p.1 ≤ q.1) (List.zip ((-Real.pi :: l).map f) s.data)
  set srt := List.insertionSort (fun p q : ℝ × List ℝ => p.1 ≤ q.1) (List.zip ((-Real.pi :: l).map f) s.data) with hsrt
  have hdat := g.data
  rw [g.args] at hdat
  refine ⟨_, rfl, rfl, rfl, ?_, ?_, ?_, List.zip ((-Real.pi :: l).map f) s.data, ?_, ?_⟩
  · simp only [List.length_map]
    rw [hperm.length_eq, List.length_zip, List.length_map, hdat, min_self]
  · simp only [List.pairwise_map]
    exact hsort
  · intro t ht
    simp only [List.mem_map] at ht
    obtain ⟨p, hp, rfl⟩ := ht
    have hp := hperm.mem_iff.1 hp
    have := (List.of_mem_zip (a := p.1) (b := p.2) hp).1
    simp only [List.mem_map] at this
    obtain ⟨t, _, ht⟩ := this
    rw [← ht]
    exact Spread.wrapAngle_range _
  · unfold directions
    simp only [sub_zero, List.map_id']
    rw [← List.zip_of_prod rfl rfl]
    exact hperm.symm
  · unfold directions
    rw [List.forall₂_iff_get]
    refine ⟨by simp [g.args], fun i h1 h2 => ?_⟩
    have e : ∀ (x : List ℝ) (h : s.args0 = x) (i : ℕ) (hi : i < s.args0.length), s.args0[i] = x[i]'(h ▸ hi) := by
      rintro x rfl i hi; rfl
    have hi : i < s.args0.length := by
      have := h1
      simp only [List.length_zip, List.length_map] at this
      omega
    simp only [List.get_eq_getElem, List.getElem_zip, List.getElem_map]
    refine ⟨trivial, ?_⟩
    rw [e _ g.args i hi]
    obtain ⟨m, hm⟩ := Spread.wrapAngle_congr ((-Real.pi :: l)[i]'(g.args ▸ hi) - Spread.wrapAngle (s.phi + phi))
    refine ⟨m - n, ?_⟩
    push_cast
    linear_combination hm - hn

example : ¬ SameDir (-Real.pi) ((-Real.pi :: [0]).getLastD 0) ∧ ¬ SameDir (0 + 1) 0 := by
  have hpi := Real.pi_pos
  constructor
  · rintro ⟨n, hn⟩
    simp only [List.getLastD_cons, List.getLastD_nil] at hn
    have h3 : (2 * n : ℝ) * Real.pi = -1 * Real.pi := by linarith
    have h4 := mul_right_cancel₀ hpi.ne' h3
    have h5 : 2 * n = -1 := by exact_mod_cast h4
    omega
  · rintro ⟨n, hn⟩
    have h2 := Real.two_le_pi
    rcases lt_trichotomy n 0 with h | h | h
    · have : (n : ℝ) ≤ -1 := by exact_mod_cast (by omega : n ≤ -1)
      nlinarith
    · rw [h] at hn; norm_num at hn
    · have : (1 : ℝ) ≤ n := by exact_mod_cast h
      nlinarith

/-- A grid that ends where it starts, such as the default grid from `-pi` to `pi`, cannot be rotated: the call raises an error unless the
new `phi` is zero. -/
theorem C194_closed_refuted (gridK : Spec2 → Spec2 × Option Err2) (s : Spec2) (l : List ℝ) (g : Polar s (-Real.pi) l) (phi : ℝ)
    (hclosed : SameDir (-Real.pi) ((-Real.pi :: l).getLastD 0)) (hphi : ¬ SameDir (s.phi + phi) 0) :
    ∃ out e, rotate gridK s phi true = (out, some e) := by
  obtain ⟨n, hn⟩ := Spread.wrapAngle_congr (s.phi + phi)
  have hwrap : Spread.wrapAngle (Spread.wrapAngle (s.phi + phi) + (-Real.pi + Real.pi)) = Spread.wrapAngle (s.phi + phi) := by
    rw [neg_add_cancel, add_zero]
    exact Spread.wrapAngle_id (Spread.wrapAngle_range _).1 (Spread.wrapAngle_range _).2
  have hne : Spread.wrapAngle (s.phi + phi) ≠ 0 := by
    intro h0
    apply hphi
    refine ⟨-n, ?_⟩
    rw [h0] at hn
    push_cast
    linarith
  have hc : Spread.pmod (-Real.pi - (-Real.pi :: l).getLastD 0) (2 * Real.pi) = 0 := by
    obtain ⟨m, hm⟩ := hclosed
    unfold Spread.pmod
    have hpi := Real.pi_pos
    have : (-Real.pi - (-Real.pi :: l).getLastD 0) / (2 * Real.pi) = (m : ℝ) := by
      rw [div_eq_iff (by positivity)]
      linarith
    rw [this, Int.floor_intCast]
    linarith
  unfold rotate
  simp only []
  rw [if_pos (stype_dir s g.dir), g.args]
  simp only []
  rw [if_neg (by rw [g.list]; decide), hwrap, if_pos ⟨trivial, hne⟩, if_pos hc, if_pos hc]
  exact ⟨_, _, rfl⟩

example : SameDir (-Real.pi) ((-Real.pi :: [0, Real.pi]).getLastD 0) := ⟨-1, by simp; ring⟩

end

end Wafo.SpecD
