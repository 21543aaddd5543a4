import Verif.Grid.Model
import Mathlib.Tactic.FieldSimp
import Mathlib.Algebra.BigOperators.Ring.Finset
import Mathlib.Algebra.Order.BigOperators.Ring.Finset
import Mathlib.Algebra.BigOperators.Intervals
import Mathlib.Data.Nat.Bitwise

set_option linter.unusedSectionVars false

/-! Helper lemmas for the binning properties. -/

namespace Wafo.Grid

variable {α : Type*} [Field α] [LinearOrder α] [IsStrictOrderedRing α] [FloorRing α]

/-- Equidistant grid `a, a+h, ..., a+(n-1)h`. -/
def ugrid (a h : α) (n : ℕ) : List α := (List.range n).map (fun k : ℕ => a + (k : α) * h)

theorem ugrid_length (a h : α) (n : ℕ) : (ugrid a h n).length = n := by simp [ugrid]

theorem ugrid_get (a h : α) (n k : ℕ) (hk : k < n) : (ugrid a h n)[k]? = some (a + (k : α) * h) := by
  simp [ugrid, List.getElem?_map, List.getElem?_range hk]

theorem pyGet_nat (l : List α) (k : ℕ) (v : α) (h : l[k]? = some v) : pyGet l (k : ℤ) = .ok v := by
  have h0 : ¬ ((k : ℤ) < 0) := by omega
  simp only [pyGet, h0, if_false, Int.natCast_nonneg, if_true, Int.toNat_natCast, h]

theorem pyGet_none (l : List α) (k : ℕ) (h : l.length ≤ k) : pyGet l (k : ℤ) = .error .indexError := by
  have h0 : ¬ ((k : ℤ) < 0) := by omega
  simp only [pyGet, h0, if_false, Int.natCast_nonneg, if_true, Int.toNat_natCast,
    List.getElem?_eq_none h]

theorem mapM_ok {β γ : Type*} (f : β → Except PyErr γ) (g : β → γ) (l : List β)
    (h : ∀ b ∈ l, f b = .ok (g b)) : l.mapM f = .ok (l.map g) := by
  induction l with
  | nil => rfl
  | cons b l ih =>
    rw [List.mapM_cons, h b (by simp), ih (fun c hc => h c (by simp [hc]))]
    rfl

theorem mapM_error {β γ : Type*} (f : β → Except PyErr γ) (e : PyErr) (l : List β)
    (h : ∀ b ∈ l, (∃ c, f b = .ok c) ∨ f b = .error e) (hx : ∃ b ∈ l, f b = .error e) :
    l.mapM f = .error e := by
  induction l with
  | nil => simp at hx
  | cons b l ih =>
    rw [List.mapM_cons]
    rcases h b (by simp) with ⟨c, hc⟩ | hc
    · rw [hc]
      have hx' : ∃ b ∈ l, f b = .error e := by
        obtain ⟨b', hb', he⟩ := hx
        rcases List.mem_cons.1 hb' with rfl | hm
        · rw [hc] at he; cases he
        · exact ⟨b', hm, he⟩
      have := ih (fun c hc => h c (by simp [hc])) hx'
      rw [this]; rfl
    · rw [hc]; rfl

theorem bincount_length (n : ℕ) (iw : List (ℕ × α)) : (bincount n iw).length = n := by simp [bincount]

theorem range_sum (n : ℕ) (f : ℕ → α) : ((List.range n).map f).sum = ∑ i ∈ Finset.range n, f i := by
  induction n with
  | zero => simp
  | succ n ih => simp [List.range_succ, Finset.sum_range_succ, ih]

/-- Summing any function of the index against the bin counts. -/
theorem bincount_sum (n : ℕ) (φ : ℕ → α) (iw : List (ℕ × α)) (h : ∀ p ∈ iw, p.1 < n) :
    ((List.range n).map (fun k => (((iw.filter (fun p => p.1 = k)).map Prod.snd).sum) * φ k)).sum
      = (iw.map (fun p => p.2 * φ p.1)).sum := by
  induction iw with
  | nil => simp
  | cons p l ih =>
    have ih' := ih (fun q hq => h q (by simp [hq]))
    rw [List.map_cons, List.sum_cons, ← ih']
    have key : ∀ k : ℕ, ((((p :: l).filter (fun p => p.1 = k)).map Prod.snd).sum) * φ k
        = (if k = p.1 then p.2 * φ p.1 else 0)
          + (((l.filter (fun p => p.1 = k)).map Prod.snd).sum) * φ k := by
      intro k
      by_cases hk : p.1 = k
      · subst hk; simp [add_mul]
      · have hk' : ¬ (k = p.1) := fun e => hk e.symm
        simp [hk, hk']
    simp only [key]
    rw [List.sum_map_add]
    congr 1
    have hp := h p (by simp)
    rw [range_sum]
    simp [hp]

theorem bincount_nonneg (n : ℕ) (iw : List (ℕ × α)) (h : ∀ p ∈ iw, 0 ≤ p.2) : ∀ v ∈ bincount n iw, 0 ≤ v := by
  intro v hv
  simp only [bincount, List.mem_map] at hv
  obtain ⟨k, -, rfl⟩ := hv
  apply List.sum_nonneg
  intro w hw
  simp only [List.mem_map, List.mem_filter] at hw
  obtain ⟨p, ⟨hp, -⟩, rfl⟩ := hw
  exact h p hp

end Wafo.Grid
