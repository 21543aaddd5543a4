import Verif.Tran.Model
import Mathlib.Tactic.FieldSimp
import Mathlib.Tactic.NormNum
import Mathlib.Data.Rat.Floor

/-!
Lemmas on grids for C49-C51.
-/

set_option linter.unusedSectionVars false

namespace Wafo.Tran

variable {α : Type*} [Field α] [LinearOrder α] [IsStrictOrderedRing α] [FloorRing α]

theorem diff_get (l : List α) (k : ℕ) (a b : α) (ha : l[k]? = some a) (hb : l[k + 1]? = some b) :
    (diff l)[k]? = some (b - a) := by
  induction l generalizing k with
  | nil => simp at ha
  | cons c l ih =>
    cases l with
    | nil => simp at hb
    | cons d l =>
      rw [show diff (c :: d :: l) = (d - c) :: diff (d :: l) from rfl]
      cases k with
      | zero => simp at ha hb; subst ha hb; rfl
      | succ k =>
        rw [List.getElem?_cons_succ] at ha hb ⊢
        exact ih k ha hb

theorem mem_diff (l : List α) (d : α) (h : d ∈ diff l) :
    ∃ (k : ℕ) (a b : α), l[k]? = some a ∧ l[k + 1]? = some b ∧ d = b - a := by
  induction l with
  | nil => simp [diff] at h
  | cons c l ih =>
    cases l with
    | nil => simp [diff] at h
    | cons e l =>
      rw [show diff (c :: e :: l) = (e - c) :: diff (e :: l) from rfl, List.mem_cons] at h
      rcases h with rfl | h
      · exact ⟨0, c, e, rfl, rfl, rfl⟩
      · obtain ⟨k, a, b, h1, h2, h3⟩ := ih h
        exact ⟨k + 1, a, b, by simpa using h1, by simpa using h2, h3⟩

theorem diff_pos_iff (l : List α) : (∀ d ∈ diff l, 0 < d) ↔ l.Pairwise (· < ·) := by
  constructor
  · intro h
    induction l with
    | nil => exact .nil
    | cons c l ih =>
      cases l with
      | nil => simp
      | cons e l =>
        rw [show diff (c :: e :: l) = (e - c) :: diff (e :: l) from rfl] at h
        have hp := ih (fun d hd => h d (List.mem_cons_of_mem _ hd))
        have hce : c < e := by have := h (e - c) (by simp); linarith
        refine List.pairwise_cons.2 ⟨?_, hp⟩
        intro v hv
        rcases List.mem_cons.1 hv with rfl | hv
        · exact hce
        · exact lt_trans hce ((List.pairwise_cons.1 hp).1 v hv)
  · intro h d hd
    obtain ⟨k, a, b, h1, h2, rfl⟩ := mem_diff l d hd
    obtain ⟨i1, rfl⟩ := List.getElem?_eq_some_iff.1 h1
    obtain ⟨i2, rfl⟩ := List.getElem?_eq_some_iff.1 h2
    have := List.pairwise_iff_getElem.1 h k (k + 1) i1 i2 (by omega)
    linarith

/-- Consecutive values differ by `h` up to `δ`. -/
def Steps (h δ : α) (xs : List α) : Prop :=
  ∀ (k : ℕ) a b, xs[k]? = some a → xs[k + 1]? = some b → |b - a - h| ≤ δ

theorem sortPairs_fst (x f : List α) (h : x.length ≤ f.length) :
    ((sortPairs x f).map Prod.fst).Perm x ∧ ((sortPairs x f).map Prod.fst).Pairwise (· ≤ ·) := by
  constructor
  · have := (List.perm_insertionSort (fun p q : α × α => p.1 ≤ q.1) (x.zip f)).map Prod.fst
    rwa [List.map_fst_zip h] at this
  · rw [List.pairwise_map]
    have : IsTrans (α × α) (fun p q => p.1 ≤ q.1) := ⟨fun _ _ _ => le_trans⟩
    have : Std.Total (fun p q : α × α => p.1 ≤ q.1) := ⟨fun _ _ => le_total _ _⟩
    exact List.pairwise_insertionSort _ _

theorem sortPairs_strict (x f : List α) (h : x.length ≤ f.length) :
    ((sortPairs x f).map Prod.fst).Pairwise (· < ·) ↔ x.Nodup := by
  obtain ⟨h1, h2⟩ := sortPairs_fst x f h
  constructor
  · intro hs
    exact h1.nodup_iff.1 (hs.imp (fun h => ne_of_lt h))
  · intro hn
    have := h1.nodup_iff.2 hn
    exact (h2.and this).imp (fun h => lt_of_le_of_ne h.1 h.2)

theorem ceil_half (n : ℕ) : ⌈(n : α) + 1 / 2⌉ = (n : ℤ) + 1 := by
  rw [Int.ceil_eq_iff]
  push_cast
  constructor <;> linarith

/-- The resampled abscissae: `n` equally spaced points from `x0` to `xn`. -/
theorem arange_uniform (x0 xn : α) (n : ℕ) (hn : 2 ≤ n) (hx : x0 < xn) :
    arange x0 (xn + (xn - x0) / ((n : α) - 1) / 2) ((xn - x0) / ((n : α) - 1))
      = (List.range n).map (fun k : ℕ => x0 + (k : α) * ((xn - x0) / ((n : α) - 1))) := by
  have h2 : (2 : α) ≤ n := by exact_mod_cast hn
  have hd : 0 < (xn - x0) / ((n : α) - 1) := div_pos (by linarith) (by linarith)
  unfold arange
  have : (xn + (xn - x0) / ((n : α) - 1) / 2 - x0) / ((xn - x0) / ((n : α) - 1)) = ((n - 1 : ℕ) : α) + 1 / 2 := by
    rw [Nat.cast_sub (by omega)]
    have h1 : (n : α) - 1 ≠ 0 := by intro h; linarith
    have h3 : xn - x0 ≠ 0 := by intro h; linarith
    field_simp
    push_cast
    ring
  rw [this, ceil_half]
  congr 2
  omega

theorem map_range_get {β : Type*} (n k : ℕ) (F : ℕ → β) (v : β)
    (h : ((List.range n).map F)[k]? = some v) : k < n ∧ v = F k := by
  rw [List.getElem?_map] at h
  by_cases hk : k < n
  · rw [List.getElem?_range hk] at h
    simp at h
    exact ⟨hk, h.symm⟩
  · rw [List.getElem?_eq_none (by simpa using hk)] at h
    simp at h

/-- Base grid: at least two strictly increasing points from `x0` to `xn`, spacing `h` (the first step) up to
`δ` . -/
structure Base (h δ x0 xn : α) (xs : List α) : Prop where
  two : ∃ b l, xs = x0 :: b :: l ∧ b - x0 = h
  pos : 0 < h
  sorted : xs.Pairwise (· < ·)
  last : xs.getLast? = some xn
  steps : Steps h δ xs

theorem steps_of_second (xs : List α) (h e : α) (he : 0 ≤ e) (a b : α) (l : List α) (hxs : xs = a :: b :: l)
    (hh : b - a = h) (h2 : ∀ d ∈ diff (diff xs), |d| ≤ e) : Steps h (xs.length * e) xs := by
  have key : ∀ (k : ℕ) u v, xs[k]? = some u → xs[k + 1]? = some v → |v - u - h| ≤ k * e := by
    intro k
    induction k with
    | zero =>
      intro u v hu hv
      rw [hxs] at hu hv
      simp at hu hv
      subst hu hv
      rw [hh]; simp
    | succ k ih =>
      intro u v hu hv
      have hk : k < xs.length := by
        have := (List.getElem?_eq_some_iff.1 hu).1; omega
      have hw : xs[k]? = some xs[k] := List.getElem?_eq_getElem hk
      have i1 := ih _ _ hw hu
      have d1 := diff_get xs k _ _ hw hu
      have d2 := diff_get xs (k + 1) _ _ hu hv
      have d3 := h2 _ (List.mem_of_getElem? (diff_get (diff xs) k _ _ d1 d2))
      have : v - u - h = (v - u - (u - xs[k])) + (u - xs[k] - h) := by ring
      rw [this]
      push_cast
      calc _ ≤ |v - u - (u - xs[k])| + |u - xs[k] - h| := abs_add_le _ _
        _ ≤ e + k * e := add_le_add d3 i1
        _ = (k + 1) * e := by ring
  intro k u v hu hv
  have hk := (List.getElem?_eq_some_iff.1 hu).1
  have : (k : α) ≤ xs.length := by exact_mod_cast hk.le
  exact (key k u v hu hv).trans (mul_le_mul_of_nonneg_right this he)

theorem base_resampled (x0 xn δ : α) (hδ : 0 ≤ δ) (n : ℕ) (hn : 2 ≤ n) (hx : x0 < xn) :
    Base ((xn - x0) / ((n : α) - 1)) δ x0 xn
      ((List.range n).map (fun k : ℕ => x0 + (k : α) * ((xn - x0) / ((n : α) - 1)))) := by
  have h2 : (2 : α) ≤ n := by exact_mod_cast hn
  have hd : 0 < (xn - x0) / ((n : α) - 1) := div_pos (by linarith) (by linarith)
  obtain ⟨m, rfl⟩ : ∃ m, n = m + 2 := ⟨n - 2, by omega⟩
  refine ⟨?_, hd, ?_, ?_, ?_⟩
  · rw [List.range_succ_eq_map, List.range_succ_eq_map]
    refine ⟨_, _, by simp only [List.map_cons, Nat.cast_zero, zero_mul, add_zero]; rfl, ?_⟩
    simp
  · rw [List.pairwise_map]
    refine List.pairwise_lt_range.imp ?_
    intro i j hij
    have : (i : α) < j := by exact_mod_cast hij
    nlinarith
  · rw [List.range_succ, List.map_append]
    simp only [List.map_cons, List.map_nil, List.getLast?_append, List.getLast?_singleton, Option.some_or]
    congr 1
    have h1 : ((m + 2 : ℕ) : α) - 1 ≠ 0 := by intro h; linarith
    have h3 : ((m + 1 : ℕ) : α) = ((m + 2 : ℕ) : α) - 1 := by push_cast; ring
    rw [h3]
    field_simp
    ring
  · intro k a b ha hb
    obtain ⟨_, rfl⟩ := map_range_get _ _ _ _ ha
    obtain ⟨_, rfl⟩ := map_range_get _ _ _ _ hb
    push_cast
    rw [show x0 + ((k : α) + 1) * ((xn - x0) / ((m : α) + 2 - 1)) - (x0 + (k : α) * ((xn - x0) / ((m : α) + 2 - 1)))
      - (xn - x0) / ((m : α) + 2 - 1) = 0 by ring, abs_zero]
    exact hδ

/-- What `trangood` does with valid input: a base grid, then the two extrapolations. -/
theorem trangood_core (eps : α) (heps : 0 ≤ eps) (interp : List α → List α → α → α) (x f : List α)
    (minn : Option ℕ) (minx maxx : Option α) (maxn : Option ℕ) (hlen : f.length = x.length)
    (h2 : 2 ≤ x.length) (hnd : x.Nodup) :
    ∃ g x0 xn h, Base h (x.length * (10 * eps * (xn - x0))) x0 xn (g.map Prod.fst) ∧
      x0 ∈ x ∧ xn ∈ x ∧ (∀ v ∈ x, x0 ≤ v ∧ v ≤ xn) ∧
      trangood eps interp x f minn minx maxx maxn =
        (match extendLow h (minx.getD x0) g with
         | .error e => .error e
         | .ok g2 => extendHigh h (maxx.getD xn) f g2) ∧
      (g = sortPairs x f ∨ ∃ n, 2 ≤ n ∧ g.map Prod.fst =
        (List.range n).map (fun k : ℕ => x0 + (k : α) * ((xn - x0) / ((n : α) - 1)))) := by
  obtain ⟨hp, hle⟩ := sortPairs_fst x f hlen.ge
  have hs := (sortPairs_strict x f hlen.ge).2 hnd
  set g0 := sortPairs x f with hg0
  set xo := g0.map Prod.fst with hxo
  have hxl : xo.length = x.length := hp.length_eq
  obtain ⟨a, b, l, hab⟩ : ∃ a b l, xo = a :: b :: l := by
    match xo, hxl with
    | [], h => simp at h; omega
    | [_], h => simp at h; omega
    | a :: b :: l, _ => exact ⟨a, b, l, rfl⟩
  obtain ⟨xn, hxn⟩ : ∃ xn, xo.getLast? = some xn := by
    rw [hab]; exact ⟨_, List.getLast?_eq_some_getLast (by simp)⟩
  have hxnm : xn ∈ xo := List.mem_of_getLast? hxn
  have hlast : ∀ v ∈ xo, v ≤ xn := by
    intro v hv
    obtain ⟨k, hk⟩ := List.mem_iff_getElem?.1 hv
    rw [List.getLast?_eq_getElem?] at hxn
    obtain ⟨k1, rfl⟩ := List.getElem?_eq_some_iff.1 hk
    obtain ⟨k2, rfl⟩ := List.getElem?_eq_some_iff.1 hxn
    rcases Nat.lt_or_ge k (xo.length - 1) with h | h
    · exact (List.pairwise_iff_getElem.1 hs _ _ k1 k2 h).le
    · have : k = xo.length - 1 := by omega
      subst this; exact le_rfl
  have hfirst : ∀ v ∈ xo, a ≤ v := by
    intro v hv
    rw [hab] at hv hs
    rcases List.mem_cons.1 hv with rfl | hv
    · exact le_rfl
    · exact ((List.pairwise_cons.1 hs).1 v hv).le
  have hab' : a < b := by
    rw [hab] at hs
    exact (List.pairwise_cons.1 hs).1 b (by simp)
  have haxn : a < xn := lt_of_lt_of_le hab' (hlast b (by rw [hab]; simp))
  have hmem : a ∈ x ∧ xn ∈ x ∧ ∀ v ∈ x, a ≤ v ∧ v ≤ xn := by
    refine ⟨hp.mem_iff.1 (by rw [hab]; simp), hp.mem_iff.1 hxnm, ?_⟩
    intro v hv
    have := hp.mem_iff.2 hv
    exact ⟨hfirst v this, hlast v this⟩
  have hL : 0 ≤ 10 * eps * (xn - a) := mul_nonneg (by linarith) (by linarith)
  have hunfold : trangood eps interp x f minn minx maxx maxn =
      (match (if mustResample eps xo (max (minn.getD xo.length) 2) (maxn.map (fun m => max m 2)) (xn - a) then
            resample interp g0 a xn (match maxn.map (fun m => max m 2) with
              | some m => min (max (minn.getD xo.length) 2) m
              | none => max (minn.getD xo.length) 2)
          else .ok g0 : Except PyErr (List (α × α))) with
        | .error e => .error e
        | .ok g1 =>
          match g1 with
          | (xa, _) :: (xb, _) :: _ =>
            match extendLow (xb - xa) (minx.getD a) g1 with
            | .error e => .error e
            | .ok g2 => extendHigh (xb - xa) (maxx.getD xn) f g2
          | _ => .error .indexError) := by
    unfold trangood
    rw [if_neg (by omega)]
    dsimp only
    rw [← hg0, ← hxo, if_pos]
    · rw [hxn]
      have : xo.head? = some a := by rw [hab]; rfl
      rw [this]
      rfl
    · rw [List.all_eq_true]
      intro d hd
      simpa using (diff_pos_iff xo).2 hs d hd
  by_cases hr : mustResample eps xo (max (minn.getD xo.length) 2) (maxn.map (fun m => max m 2)) (xn - a) = true
  · set n := (match maxn.map (fun m => max m 2) with
              | some m => min (max (minn.getD xo.length) 2) m
              | none => max (minn.getD xo.length) 2) with hn
    have hn2 : 2 ≤ n := by
      rw [hn]
      cases maxn with
      | none => simp
      | some m => simp
    rw [if_pos hr] at hunfold
    have hb := base_resampled a xn (x.length * (10 * eps * (xn - a))) (mul_nonneg (Nat.cast_nonneg _) hL) n hn2 haxn
    have hne : (xn - a) / ((n : α) - 1) ≠ 0 := hb.pos.ne'
    unfold resample at hunfold
    dsimp only at hunfold
    rw [if_neg hne, arange_uniform a xn n hn2 haxn, List.map_map] at hunfold
    dsimp only at hunfold
    set g1 : List (α × α) := (List.range n).map ((fun v => (v, interp (g0.map Prod.fst) (g0.map Prod.snd) v)) ∘
      (fun k : ℕ => a + (k : α) * ((xn - a) / ((n : α) - 1)))) with hg1
    have hfst : g1.map Prod.fst = (List.range n).map (fun k : ℕ => a + (k : α) * ((xn - a) / ((n : α) - 1))) := by
      rw [hg1, List.map_map]; rfl
    refine ⟨g1, a, xn, (xn - a) / ((n : α) - 1), by rw [hfst]; exact hb, hmem.1, hmem.2.1, hmem.2.2, ?_,
      Or.inr ⟨n, hn2, hfst⟩⟩
    rw [hunfold]
    obtain ⟨b', l', e1, e2⟩ := hb.two
    rw [← hfst] at e1
    match hgg : g1, e1 with
    | (xa, _) :: (xb, _) :: _, e1 =>
      simp only [List.map_cons, List.cons.injEq] at e1
      obtain ⟨rfl, rfl, _⟩ := e1
      dsimp only
      rw [e2]
    | [], e1 => simp at e1
    | [_], e1 => simp at e1
  · rw [if_neg hr] at hunfold
    dsimp only at hunfold
    have hsec : ∀ d ∈ diff (diff xo), |d| ≤ 10 * eps * (xn - a) := by
      intro d hd
      by_contra hc
      apply hr
      unfold mustResample
      rw [Bool.or_eq_true]
      right
      rw [List.any_eq_true]
      exact ⟨d, hd, by simpa using hc⟩
    refine ⟨g0, a, xn, b - a, ⟨⟨b, l, hab, rfl⟩, by linarith, hs, hxn, ?_⟩, hmem.1, hmem.2.1, hmem.2.2, ?_,
      Or.inl rfl⟩
    · rw [← hxo, ← hxl]
      exact steps_of_second xo (b - a) _ hL a b l hab rfl hsec
    · rw [hunfold]
      have e1 : g0.map Prod.fst = a :: b :: l := hab
      match hgg : g0, e1 with
      | (xa, _) :: (xb, _) :: _, e1 =>
        simp only [List.map_cons, List.cons.injEq] at e1
        obtain ⟨rfl, rfl, _⟩ := e1
        dsimp only
      | [], e1 => simp at e1
      | [_], e1 => simp at e1

/-- Upper extrapolation appends equally spaced points up to at least `maxx`. -/
theorem extendHigh_spec (h maxx : α) (hh : 0 < h) (f : List α) (hf : 2 ≤ f.length) (g : List (α × α)) (xl : α)
    (hg : 2 ≤ g.length) (hl : (g.map Prod.fst).getLast? = some xl) :
    ∃ (m : ℕ) (t : List (α × α)), extendHigh h maxx f g = .ok (g ++ t) ∧
      t.map Prod.fst = (List.range m).map (fun k : ℕ => h * ((k + 1 : ℕ) : α) + xl) ∧
      maxx ≤ xl + m * h ∧ (maxx ≤ xl → t = []) := by
  have hlen : (g.map Prod.fst).length = g.length := by simp
  rw [List.getLast?_eq_getElem?, hlen] at hl
  unfold extendHigh
  have e1 : fromEnd (g.map Prod.fst) 1 = .ok xl := by
    unfold fromEnd
    rw [if_pos (by rw [hlen]; omega), hlen, hl]
  rw [e1]
  dsimp only
  split
  · rename_i hlt
    have fe : ∀ (l : List α) (k : ℕ), 0 < k → k ≤ l.length → ∃ v, fromEnd l k = .ok v := by
      intro l k hk0 hk
      unfold fromEnd
      rw [if_pos hk, List.getElem?_eq_getElem (by omega)]
      exact ⟨_, rfl⟩
    obtain ⟨xk, e2⟩ := fe (g.map Prod.fst) 2 (by omega) (by omega)
    obtain ⟨fl, e3⟩ := fe f 1 (by omega) (by omega)
    obtain ⟨fk, e4⟩ := fe f 2 (by omega) (by omega)
    rw [e2, e3, e4]
    refine ⟨⌈(maxx - xl) / h⌉.toNat, _, rfl, ?_, ?_, fun h => absurd hlt (not_lt.2 h)⟩
    · rw [List.map_map, List.map_map]
      rfl
    · have hpos : 0 < (maxx - xl) / h := div_pos (by linarith) hh
      have h0 : 0 ≤ ⌈(maxx - xl) / h⌉ := Int.ceil_nonneg hpos.le
      have hc : (maxx - xl) / h ≤ ((⌈(maxx - xl) / h⌉.toNat : ℕ) : α) := by
        have : ((⌈(maxx - xl) / h⌉.toNat : ℕ) : α) = ((⌈(maxx - xl) / h⌉ : ℤ) : α) := by
          rw [← Int.cast_natCast, Int.toNat_of_nonneg h0]
        rw [this]
        exact Int.le_ceil _
      rw [div_le_iff₀ hh] at hc
      linarith
  · rename_i hlt
    exact ⟨0, [], by simp, by simp, by simpa using hlt, fun _ => rfl⟩

/-- Appending equally spaced points to a base grid. -/
theorem base_append (h δ x0 xl : α) (hδ : 0 ≤ δ) (xs : List α) (hb : Base h δ x0 xl xs) (m : ℕ) :
    Base h δ x0 (xl + m * h) (xs ++ (List.range m).map (fun k : ℕ => h * ((k + 1 : ℕ) : α) + xl)) := by
  obtain ⟨⟨b, l, hxs, hbh⟩, hpos, hs, hlast, hst⟩ := hb
  have hle : ∀ v ∈ xs, v ≤ xl := by
    intro v hv
    obtain ⟨k, hk⟩ := List.mem_iff_getElem?.1 hv
    rw [List.getLast?_eq_getElem?] at hlast
    obtain ⟨k1, rfl⟩ := List.getElem?_eq_some_iff.1 hk
    obtain ⟨k2, e⟩ := List.getElem?_eq_some_iff.1 hlast
    rw [← e]
    rcases Nat.lt_or_ge k (xs.length - 1) with h | h
    · exact (List.pairwise_iff_getElem.1 hs _ _ k1 k2 h).le
    · have : k = xs.length - 1 := by omega
      subst this; exact le_rfl
  refine ⟨⟨b, l ++ (List.range m).map (fun k : ℕ => h * ((k + 1 : ℕ) : α) + xl), by rw [hxs]; rfl, hbh⟩,
    hpos, ?_, ?_, ?_⟩
  · rw [List.pairwise_append]
    refine ⟨hs, ?_, ?_⟩
    · rw [List.pairwise_map]
      refine List.pairwise_lt_range.imp ?_
      intro i j hij
      have : ((i + 1 : ℕ) : α) < ((j + 1 : ℕ) : α) := by exact_mod_cast (by omega)
      nlinarith
    · intro u hu v hv
      rw [List.mem_map] at hv
      obtain ⟨k, _, rfl⟩ := hv
      have h1 := hle u hu
      have h2 : (0 : α) < ((k + 1 : ℕ) : α) := by positivity
      have := mul_pos hpos h2
      linarith
  · cases m with
    | zero => simpa using hlast
    | succ m =>
      rw [List.range_succ, List.map_append, ← List.append_assoc]
      simp only [List.map_cons, List.map_nil, List.getLast?_append, List.getLast?_singleton, Option.some_or]
      congr 1
      push_cast
      ring
  · intro k a c ha hc
    rcases Nat.lt_or_ge (k + 1) xs.length with hk | hk
    · rw [List.getElem?_append_left (by omega)] at ha
      rw [List.getElem?_append_left hk] at hc
      exact hst k a c ha hc
    · rw [List.getElem?_append_right hk] at hc
      obtain ⟨hcm, rfl⟩ := map_range_get _ _ _ _ hc
      rcases Nat.lt_or_ge k xs.length with hk' | hk'
      · rw [List.getElem?_append_left hk'] at ha
        rw [List.getLast?_eq_getElem?, show xs.length - 1 = k by omega, ha] at hlast
        cases hlast
        rw [show k + 1 - xs.length = 0 by omega]
        push_cast
        rw [show h * 1 + xl - xl - h = 0 by ring, abs_zero]
        exact hδ
      · rw [List.getElem?_append_right hk'] at ha
        obtain ⟨_, rfl⟩ := map_range_get _ _ _ _ ha
        rw [show k + 1 - xs.length = k - xs.length + 1 by omega]
        push_cast
        rw [show h * (((k - xs.length : ℕ) : α) + 1 + 1) + xl - (h * (((k - xs.length : ℕ) : α) + 1) + xl) - h = 0
          by ring, abs_zero]
        exact hδ

end Wafo.Tran
