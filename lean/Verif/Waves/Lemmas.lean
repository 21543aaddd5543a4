import Verif.Waves.Model
import Verif.Turning.TcProps
import Verif.Cycles.Lemmas
import Mathlib.Data.List.Chain

/-!
Lemmas for the wave parameters.
-/

set_option linter.unusedSectionVars false

namespace Wafo.Waves
open Wafo.Cross Wafo.Turning Wafo.Cycles

section lists
variable {β γ δ : Type}

theorem mapM_map_ok (f : β → Except PyErr γ) (g : β → γ) (l : List β) (h : ∀ a ∈ l, f a = .ok (g a)) :
    l.mapM f = .ok (l.map g) := by
  induction l with
  | nil => rfl
  | cons a l ih =>
    rw [List.mapM_cons, h a (by simp), ih (fun j hj => h j (by simp [hj]))]
    rfl

/-- The entries of a list of known length through a function. -/
theorem eq_range_map (l : List β) (d : β) : l = (List.range l.length).map fun k => l.getD k d := by
  apply List.ext_getElem?
  intro k
  rw [List.getElem?_map]
  rcases lt_or_ge k l.length with h | h
  · rw [List.getElem?_range h]; simp [List.getD, List.getElem?_eq_getElem h]
  · rw [List.getElem?_eq_none h, List.getElem?_eq_none (by simpa using h)]; rfl

theorem getElem?_range_map (n : ℕ) (f : ℕ → β) (k : ℕ) :
    ((List.range n).map f)[k]? = if k < n then some (f k) else none := by
  rw [List.getElem?_map]
  split_ifs with h
  · rw [List.getElem?_range h]; rfl
  · rw [List.getElem?_eq_none (by simpa using h)]; rfl

theorem everyOther_range (f : ℕ → β) (a n m : ℕ) (hm : m = (n - a + 1) / 2) :
    everyOther (((List.range n).map f).drop a) = (List.range m).map fun k => f (2 * k + a) := by
  apply List.ext_getElem?
  intro k
  rw [everyOther_getElem?, List.getElem?_drop, getElem?_range_map, getElem?_range_map, Nat.add_comm a]
  subst hm
  by_cases h : 2 * k + a < n
  · rw [if_pos h, if_pos (by omega)]
  · rw [if_neg h, if_neg (by omega)]

theorem everyOther_range0 (f : ℕ → β) (n m : ℕ) (hm : m = (n + 1) / 2) :
    everyOther ((List.range n).map f) = (List.range m).map fun k => f (2 * k) := by
  simpa using everyOther_range f 0 n m (by simpa using hm)

theorem drop_range (f : ℕ → β) (a n : ℕ) :
    ((List.range n).map f).drop a = (List.range (n - a)).map fun k => f (k + a) := by
  apply List.ext_getElem?
  intro k
  rw [List.getElem?_drop, getElem?_range_map, getElem?_range_map, Nat.add_comm a]
  by_cases h : k + a < n
  · rw [if_pos h, if_pos (by omega)]
  · rw [if_neg h, if_neg (by omega)]

theorem dropLast_range (f : ℕ → β) (n : ℕ) :
    ((List.range n).map f).dropLast = (List.range (n - 1)).map f := by
  rw [← List.map_dropLast, List.dropLast_eq_take, List.take_range]
  simp

theorem arith_range (f : β → γ → δ) (n : ℕ) (p : ℕ → β) (q : ℕ → γ) :
    arith f ((List.range n).map p) ((List.range n).map q) = .ok ((List.range n).map fun k => f (p k) (q k)) := by
  unfold arith
  rw [if_pos (by simp), List.zipWith_map, List.zipWith_self]

theorem slice_range (f : ℕ → ℕ) (n a b s m : ℕ) (hs : 0 < s) (hb : b ≤ n) (hm : m = (b - a + s - 1) / s) :
    sliceStep ((List.range n).map f) a b s = (List.range m).map fun k => f (a + s * k) := by
  rw [sliceStep]
  simp only [List.length_map, List.length_range, min_eq_left hb, ← hm]
  rw [show ((List.range m).map fun k => f (a + s * k)) = (List.range m).filterMap (fun k => some (f (a + s * k))) from
    (List.filterMap_eq_map' ▸ rfl)]
  apply List.filterMap_congr
  intro k hk
  rw [getElem?_range_map, if_pos]
  have hk' : k < m := by simpa using hk
  have h1 : s * m ≤ b - a + s - 1 := by rw [hm]; exact Nat.mul_div_le _ _
  have h2 : s * (k + 1) ≤ s * m := Nat.mul_le_mul_left _ hk'
  rw [Nat.mul_succ] at h2
  omega

end lists

variable {α : Type} [Field α] [LinearOrder α]

theorem diff_range (f : ℕ → α) (n : ℕ) :
    diff ((List.range n).map f) = (List.range (n - 1)).map fun k => f (k + 1) - f k := by
  have key : ∀ (n : ℕ) (f : ℕ → α), diff ((List.range (n + 1)).map f) = (List.range n).map fun k => f (k + 1) - f k := by
    intro n
    induction n with
    | zero => intro f; rfl
    | succ n ih =>
      intro f
      have := ih (fun k => f (k + 1))
      rw [List.range_succ_eq_map, List.map_cons, List.map_map, List.range_succ_eq_map, List.map_cons, List.map_map] at *
      rw [List.map_cons, List.map_map]
      simp only [diff]
      rw [show (f ∘ Nat.succ) 0 = f 1 from rfl] at *
      congr 1
  rcases n with _ | n
  · rfl
  · exact key n f

/-! ### Crossings -/

variable [IsStrictOrderedRing α]

/-- The chord between the samples `i` and `i + 1` has the value `v` at time `s`. -/
def CrossTime (t x : List α) (v : α) (i : ℕ) (s : α) : Prop :=
  ∃ t0 t1 f0 f1, t[i]? = some t0 ∧ t[i + 1]? = some t1 ∧ x[i]? = some f0 ∧ x[i + 1]? = some f1 ∧
    t0 ≤ s ∧ s < t1 ∧ f0 + (f1 - f0) / (t1 - t0) * (s - t0) = v

theorem get_lt {t : List α} (ht : t.Pairwise (· < ·)) {i j : ℕ} {a b : α} (hij : i < j) (ha : t[i]? = some a)
    (hb : t[j]? = some b) : a < b := by
  obtain ⟨hi, rfl⟩ := List.getElem?_eq_some_iff.1 ha
  obtain ⟨hj, rfl⟩ := List.getElem?_eq_some_iff.1 hb
  exact List.pairwise_iff_getElem.1 ht i j hi hj hij

theorem get_le {t : List α} (ht : t.Pairwise (· < ·)) {i j : ℕ} {a b : α} (hij : i ≤ j) (ha : t[i]? = some a)
    (hb : t[j]? = some b) : a ≤ b := by
  rcases hij.eq_or_lt with rfl | h
  · rw [ha] at hb; exact (Option.some.inj hb).le
  · exact (get_lt ht h ha hb).le

theorem get_some {t : List α} {i : ℕ} (h : i < t.length) : ∃ a, t[i]? = some a :=
  ⟨t[i], List.getElem?_eq_getElem h⟩

theorem cross_time (t x : List α) (v : α) (l : List ℕ) (hl : findcross x v none = .ok l) (ht : t.Pairwise (· < ·))
    (hlen : t.length = x.length) (i : ℕ) (hi : i ∈ l) : ∃ s, ecross1 t x v i = .ok s ∧ CrossTime t x v i s := by
  have h2 := (C02_findcross_ordered x v l hl).2.1 i hi
  obtain ⟨t0, ht0⟩ := get_some (t := t) (i := i) (by omega)
  obtain ⟨t1, ht1⟩ := get_some (t := t) (i := i + 1) (by omega)
  obtain ⟨f0, hf0⟩ := get_some (t := x) (i := i) (by omega)
  obtain ⟨f1, hf1⟩ := get_some (t := x) (i := i + 1) (by omega)
  obtain ⟨s, h1, h3, h4, h5⟩ := C06_ecross_interpolates t x v l hl i hi t0 t1 f0 f1 ht0 ht1 hf0 hf1
    (get_lt ht (Nat.lt_succ_self i) ht0 ht1)
  exact ⟨s, h1, t0, t1, f0, f1, ht0, ht1, hf0, hf1, h3, h4, h5⟩

/-- A crossing time lies after the samples up to the crossing index, weakly, and before the later ones. -/
theorem crossTime_ge {t x : List α} {v : α} {i : ℕ} {s : α} (ht : t.Pairwise (· < ·)) (h : CrossTime t x v i s) {j : ℕ}
    {a : α} (hj : t[j]? = some a) (hji : j ≤ i) : a ≤ s := by
  obtain ⟨t0, t1, f0, f1, h0, h1, -, -, h2, h3, -⟩ := h
  exact (get_le ht hji hj h0).trans h2

theorem crossTime_lt {t x : List α} {v : α} {i : ℕ} {s : α} (ht : t.Pairwise (· < ·)) (h : CrossTime t x v i s) {j : ℕ}
    {a : α} (hj : t[j]? = some a) (hji : i < j) : s < a := by
  obtain ⟨t0, t1, f0, f1, h0, h1, -, -, h2, h3, -⟩ := h
  exact h3.trans_le (get_le ht hji h1 hj)

/-- A crossing time after a sample off the level is strictly later. -/
theorem crossTime_gt {t x : List α} {v : α} {i : ℕ} {s : α} (ht : t.Pairwise (· < ·)) (h : CrossTime t x v i s) {j : ℕ}
    {a e : α} (hj : t[j]? = some a) (hji : j ≤ i) (he : x[j]? = some e) (hev : e ≠ v) : a < s := by
  refine lt_of_le_of_ne (crossTime_ge ht h hj hji) ?_
  rintro rfl
  obtain ⟨t0, t1, f0, f1, h0, h1, h2, h3, h4, h5, h6⟩ := h
  obtain rfl : j = i := by
    by_contra hne
    exact absurd (get_lt ht (lt_of_le_of_ne hji hne) hj h0) (not_lt.2 h4)
  rw [hj] at h0
  obtain rfl := Option.some.inj h0
  rw [he] at h2
  obtain rfl := Option.some.inj h2
  apply hev
  simpa using h6

theorem crossTime_lt_crossTime {t x : List α} {v : α} {i j : ℕ} {s r : α} (ht : t.Pairwise (· < ·))
    (hi : CrossTime t x v i s) (hj : CrossTime t x v j r) (hij : i < j) : s < r := by
  obtain ⟨t0, t1, f0, f1, h0, h1, -, -, h2, h3, -⟩ := hi
  exact h3.trans_le (crossTime_ge ht hj h1 hij)

/-- Directions in a contiguous part of the crossings that begins with a down-crossing or an up-crossing. -/
theorem part_dirs (x : List α) (v : α) (l c p q : List ℕ) (hl : findcross x v none = .ok l) (hpart : l = p ++ c ++ q) :
    ∀ (j : ℕ) i i0, c[0]? = some i0 → c[j]? = some i →
      (DownAt x v i0 → if j % 2 = 0 then DownAt x v i else UpAt x v i) ∧
      (UpAt x v i0 → if j % 2 = 0 then UpAt x v i else DownAt x v i) := by
  have hch := (C02_findcross_ordered x v l hl).2.2
  have hc : c.IsChain (fun i j => (UpAt x v i ∧ DownAt x v j) ∨ (DownAt x v i ∧ UpAt x v j)) := by
    rw [hpart] at hch
    exact (List.isChain_append.1 (List.isChain_append.1 hch).1).2.1
  have hex : ∀ i, UpAt x v i → DownAt x v i → False := by
    rintro i ⟨b, hb, h1⟩ ⟨b', hb', h2⟩
    rw [hb] at hb'
    obtain rfl := Option.some.inj hb'
    exact lt_asymm h1 h2
  intro j
  induction j with
  | zero =>
    intro i i0 h0 hi
    rw [h0] at hi
    obtain rfl := Option.some.inj hi
    exact ⟨fun h => by simpa using h, fun h => by simpa using h⟩
  | succ j ih =>
    intro i i0 h0 hi
    obtain ⟨hi1, rfl⟩ := List.getElem?_eq_some_iff.1 hi
    have hstep := List.isChain_iff_getElem.1 hc j (by omega)
    have hj := ih c[j] i0 h0 (List.getElem?_eq_getElem (by omega))
    constructor
    · intro hd
      have := hj.1 hd
      by_cases hp : j % 2 = 0
      · rw [if_pos hp] at this
        rw [if_neg (by omega)]
        rcases hstep with h | h
        · exact (hex _ h.1 this).elim
        · exact h.2
      · rw [if_neg hp] at this
        rw [if_pos (by omega)]
        rcases hstep with h | h
        · exact h.2
        · exact (hex _ this h.1).elim
    · intro hd
      have := hj.2 hd
      by_cases hp : j % 2 = 0
      · rw [if_pos hp] at this
        rw [if_neg (by omega)]
        rcases hstep with h | h
        · exact h.2
        · exact (hex _ this h.1).elim
      · rw [if_neg hp] at this
        rw [if_pos (by omega)]
        rcases hstep with h | h
        · exact (hex _ h.1 this).elim
        · exact h.2

end Wafo.Waves
