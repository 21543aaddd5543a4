import Verif.Spread.Lemmas

/-!
What a call of a spreading function returns, entry by entry.
-/

set_option linter.unusedSectionVars false

namespace Wafo.Spread

open Real MeasureTheory Set

/-- The parameter handed to the spreading function when the equivalent cos2s parameter is `S`. -/
noncomputable def param (sol : Solvers) (t : SType) (S : ℝ) : ℝ :=
  match t with
  | .cos2s => S
  | .box => sol.a (S / (S + 1))
  | .mises => if S / (S + 1) ≠ 0 then sol.k (S / (S + 1)) else 0
  | .poisson => S / (S + 1)
  | .sech2 => if S / (S + 1) ≠ 0 then |sol.b (S / (S + 1))| else 0
  | .wrap => 0

theorem bcast_map {α β : Type*} (f : α → β) (l : List α) (j : ℕ) : bcast (l.map f) j = (bcast l j).map f := by
  unfold bcast
  rw [List.length_map]
  split_ifs <;> simp

theorem ratio_range {S : ℝ} (h : 0 ≤ S) : 0 ≤ S / (S + 1) ∧ S / (S + 1) < 1 :=
  ⟨by positivity, by rw [div_lt_one (by linarith)]; linarith⟩

theorem spreadPar_ok {sol : Solvers} {d : Obj} {t : SType} {wn s : List ℝ} (ht : t ≠ .wrap) (hs : spreadS d wn = .ok s)
    (h0 : ∀ x ∈ s, 0 ≤ x) : spreadPar sol d t wn = .ok (s.map fun S => some (param sol t S)) := by
  have h1 : ¬ (s.any (fun x => decide (x < 0)) = true) := by
    simp only [List.any_eq_true, decide_eq_true_eq, not_exists, not_and, not_lt]
    exact h0
  have h2 : ¬ (t = .poisson ∧ (s.map fun x => |x / (x + 1)|).any (fun x => decide (1 ≤ x)) = true) := by
    rintro ⟨-, h⟩
    simp only [List.any_eq_true, decide_eq_true_eq, List.mem_map] at h
    obtain ⟨_, ⟨x, hx, rfl⟩, h⟩ := h
    have := ratio_range (h0 x hx)
    rw [abs_of_nonneg this.1] at h
    linarith
  unfold spreadPar
  rw [hs]
  simp only [if_neg h1, if_neg h2]
  by_cases hc : t = .cos2s
  · rw [if_pos hc]
    subst hc
    rfl
  · rw [if_neg hc, List.map_map]
    refine congrArg _ (List.map_congr_left fun x hx => ?_)
    have := ratio_range (h0 x hx)
    simp only [Function.comp, abs_of_nonneg this.1]
    cases t <;> simp_all [distpar, param]

theorem spreadS_length {d : Obj} {wn s : List ℝ} (hs : spreadS d wn = .ok s) : s.length = 1 ∨ s.length = wn.length := by
  unfold spreadS at hs
  split at hs
  · left; cases hs; rfl
  · right; cases hs; simp
  · cases hs
  · cases hs

theorem bcast_some {α : Type*} {l : List α} {n j : ℕ} (h : l.length = 1 ∨ l.length = n) (hj : j < n) : ∃ x, bcast l j = some x := by
  unfold bcast
  split_ifs with h1
  · exact ⟨l[0], List.getElem?_eq_getElem (by omega)⟩
  · exact ⟨l[j], List.getElem?_eq_getElem (by omega)⟩

theorem bcast_mem {α : Type*} {l : List α} {j : ℕ} {x : α} (h : bcast l j = some x) : x ∈ l := by
  unfold bcast at h
  split_ifs at h <;> exact List.mem_of_getElem? h

theorem filterMap_range {α : Type*} (g : ℕ → Option α) (f : ℕ → α) (n : ℕ) (h : ∀ j < n, g j = some (f j)) :
    (List.range n).filterMap g = (List.range n).map f := by
  rw [← List.filterMap_eq_map]
  exact List.filterMap_congr fun j hj => h j (List.mem_range.1 hj)

/-- Column `j` (after broadcasting) of the rows built by `call`. -/
theorem row_entry {α β : Type*} [Inhabited β] {pars : List β} {dirs : List ℝ} {n j : ℕ} (hp : pars.length = 1 ∨ pars.length = n) (hd : dirs.length = n ∨ dirs.length = 1)
    (hj : j < n) (F : β → ℝ → α) {p : β} {t0 : ℝ} (e1 : bcast pars j = some p) (e2 : bcast dirs j = some t0) :
    bcast ((List.range (ncols pars dirs n)).filterMap fun j => match bcast pars j, bcast dirs j with
      | some p, some t0 => some (F p t0)
      | _, _ => none) j = some (F p t0) := by
  have hg : ∀ m, m ≤ n → (List.range m).filterMap (fun j => match bcast pars j, bcast dirs j with
      | some p, some t0 => some (F p t0)
      | _, _ => none) = (List.range m).map fun j => F ((bcast pars j).getD Inhabited.default) ((bcast dirs j).getD 0) := by
    intro m hm
    refine filterMap_range _ _ m fun j hj => ?_
    obtain ⟨x, hx⟩ := bcast_some hp (by omega : j < n)
    obtain ⟨y, hy⟩ := bcast_some hd.symm (by omega : j < n)
    simp [hx, hy]
  have key : (bcast pars j).getD Inhabited.default = p ∧ (bcast dirs j).getD 0 = t0 := by simp [e1, e2]
  have full : ncols pars dirs n = n → bcast ((List.range (ncols pars dirs n)).filterMap fun j => match bcast pars j, bcast dirs j with
      | some p, some t0 => some (F p t0)
      | _, _ => none) j = some (F p t0) := by
    intro hn
    rw [hn, hg n le_rfl, bcast_map]
    have : bcast (List.range n) j = some j := by
      unfold bcast
      split_ifs with h
      · rw [List.length_range] at h
        subst h
        have : j = 0 := by omega
        subst this
        rfl
      · simp [hj]
    rw [this, Option.map_some, key.1, key.2]
  by_cases h1 : dirs.length = n
  · exact full (by simp [ncols, h1])
  · by_cases h2 : pars.length = 1
    · have hn : ncols pars dirs n = 1 := by simp [ncols, h1, h2]
      have hd1 : dirs.length = 1 := by tauto
      have b0 : bcast pars 0 = some p := by
        rw [← e1]; unfold bcast; rw [if_pos h2, if_pos h2]
      have b1 : bcast dirs 0 = some t0 := by
        rw [← e2]; unfold bcast; rw [if_pos hd1, if_pos hd1]
      have hr : bcast (List.range 1) j = some 0 := rfl
      rw [hn, hg 1 (by omega), bcast_map, hr, Option.map_some, b0, b1]
      rfl
    · exact full (by simp [ncols, h1, h2])

/-- A call with non-negative spread parameters succeeds; the entry for angle `i` and frequency `j` is the density at the angle measured from the
main direction. -/
theorem call_ok {sol : Solvers} {d : Obj} {w : List ℝ} {wc : ℝ} {t : SType} {s : List ℝ} (ht : typeOf d.type = .ok t) (hw : t ≠ .wrap)
    (hd : (d.theta0 (w.map (· / wc))).length = w.length ∨ (d.theta0 (w.map (· / wc))).length = 1)
    (hs : spreadS d (w.map (· / wc)) = .ok s) (h0 : ∀ x ∈ s, 0 ≤ x) {j : ℕ} (hj : j < w.length) :
    ∃ S t0, bcast s j = some S ∧ bcast (d.theta0 (w.map (· / wc))) j = some t0 ∧ 0 ≤ S ∧
      ∀ theta : List ℝ, ∃ D : List (List ℝ), call sol d theta w wc = .ok D ∧ D.length = theta.length ∧
        ∀ (i : ℕ) (th : ℝ), theta[i]? = some th → ∃ row : List ℝ, D[i]? = some row ∧ bcast row j = some (density t (param sol t S) (wrapAngle (th - t0))) := by
  have hl := spreadS_length hs
  rw [List.length_map] at hl
  obtain ⟨S, hS⟩ := bcast_some hl hj
  obtain ⟨t0, ht0⟩ := bcast_some hd.symm hj
  refine ⟨S, t0, hS, ht0, h0 S (bcast_mem hS), fun theta => ?_⟩
  have hd' : ¬ ((d.theta0 (w.map (· / wc))).length ≠ (w.map (· / wc)).length ∧ (d.theta0 (w.map (· / wc))).length ≠ 1) := by
    rw [List.length_map]; tauto
  unfold call
  rw [ht]
  simp only [if_neg hd', spreadPar_ok hw hs h0, if_neg hw]
  refine ⟨_, rfl, by simp, fun i th hi => ?_⟩
  refine ⟨_, ?_, row_entry (pars := s.map (param sol t)) (n := w.length) (F := fun p t0 => density t p (wrapAngle (th - t0))) (by simpa using hl) hd hj
    (by rw [bcast_map, hS]; rfl) ht0⟩
  rw [List.getElem?_map, List.getElem?_map, hi]
  simp only [Option.map_some, List.length_map, wrapAngle_wrap]
  congr 1
  have hn : ncols (s.map fun S => some (param sol t S)) (d.theta0 (w.map (· / wc))) w.length = ncols (s.map (param sol t)) (d.theta0 (w.map (· / wc))) w.length := by
    simp [ncols]
  rw [hn]
  refine List.filterMap_congr fun k _ => ?_
  have e : bcast (s.map fun S => some (param sol t S)) k = (bcast (s.map (param sol t)) k).map some := by
    rw [bcast_map, bcast_map, Option.map_map]; rfl
  rw [e]
  cases bcast (s.map (param sol t)) k <;> cases bcast (d.theta0 (w.map (· / wc))) k <;> rfl

end Wafo.Spread
