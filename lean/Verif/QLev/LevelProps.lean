import Verif.QLev.Props
import Verif.Tran.DataProps

/-!
# Properties of `qlevels` (C311, C312)
-/

set_option linter.unusedSectionVars false

namespace Wafo.QLev

open Wafo.Tran

variable {α : Type} [Field α] [LinearOrder α] [IsStrictOrderedRing α] [FloorRing α]

theorem cumsum_length (l : List α) : ∀ s, (cumsum s l).length = l.length := by
  induction l with
  | nil => intro s; rfl
  | cons v l ih => intro s; simp [cumsum, ih]

theorem cumsum_last (l : List α) : ∀ s, l ≠ [] → (cumsum s l).getLast? = some (s + l.sum) := by
  induction l with
  | nil => intro s h; exact absurd rfl h
  | cons v l ih =>
    intro s _
    rw [cumsum]
    by_cases hl : l = []
    · subst hl; simp [cumsum]
    · have hc : cumsum (s + v) l ≠ [] := by
        intro h
        have := congrArg List.length h
        rw [cumsum_length] at this
        exact hl (List.length_eq_zero_iff.1 this)
      rw [List.getLast?_cons, ih (s + v) hl, Option.getD_some, List.sum_cons, add_assoc]

theorem cumsum_sorted (l : List α) : ∀ s, (∀ v ∈ l, 0 < v) → (cumsum s l).Pairwise (· < ·) ∧ ∀ w ∈ cumsum s l, s < w := by
  induction l with
  | nil => intro s _; simp [cumsum]
  | cons v l ih =>
    intro s h
    obtain ⟨h1, h2⟩ := ih (s + v) fun w hw => h w (by simp [hw])
    have hv := h v (by simp)
    rw [cumsum]
    refine ⟨List.pairwise_cons.2 ⟨h2, h1⟩, ?_⟩
    intro w hw
    rcases List.mem_cons.1 hw with rfl | hw
    · linarith
    · have := h2 w hw; linarith

theorem keep_all : ∀ t : List (α × α), (t.map Prod.fst).Pairwise (· < ·) → (∀ p ∈ t, p.1 < 1) → keep t = t
  | [], _, _ => rfl
  | [p], _, h => by rw [keep, if_pos (h p (by simp))]
  | p :: q :: l, hs, h => by
    have h1 : p.1 < q.1 := by
      simp only [List.map_cons, List.pairwise_cons] at hs
      exact hs.1 q.1 (by simp)
    rw [keep, if_pos h1, keep_all (q :: l) (by simp only [List.map_cons, List.pairwise_cons] at hs ⊢; exact hs.2)
      fun p hp => h p (by simp [hp])]

theorem diff_length : ∀ x : List α, (diff x).length = x.length - 1
  | [] => rfl
  | [_] => rfl
  | a :: b :: l => by
    rw [show diff (a :: b :: l) = (b - a) :: diff (b :: l) from rfl, List.length_cons, diff_length]; simp

/-- The cells of two or more increasing abscissae have positive lengths. -/
theorem cell_pos (x : List α) (hx : x.Pairwise (· < ·)) (h2 : 2 ≤ x.length) : (cell x).length = x.length ∧ ∀ v ∈ cell x, 0 < v := by
  have hd : ∀ d ∈ (diff x).map (· / 2), 0 < d := by
    intro d hd
    obtain ⟨e, he, rfl⟩ := List.mem_map.1 hd
    have := (diff_pos_iff x).2 hx e he
    positivity
  have hl : ((diff x).map (· / 2)).length = x.length - 1 := by rw [List.length_map, diff_length]
  unfold cell
  dsimp only
  refine ⟨by rw [List.length_zipWith, List.length_cons, List.length_append, hl]; simp; omega, ?_⟩
  intro v hv
  obtain ⟨i, hi, rfl⟩ := List.getElem_of_mem hv
  rw [List.getElem_zipWith]
  rw [List.length_zipWith, List.length_cons, List.length_append, hl, List.length_singleton] at hi
  have hmem : ∀ j (hj : j < ((diff x).map (· / 2)).length), 0 < ((diff x).map (· / 2))[j] := fun j hj => hd _ (List.getElem_mem hj)
  by_cases h0 : i = 0
  · subst h0
    rw [List.getElem_cons_zero, List.getElem_append_left (by omega), zero_add]
    exact hmem 0 (by omega)
  · obtain ⟨j, rfl⟩ : ∃ j, i = j + 1 := ⟨i - 1, by omega⟩
    rw [List.getElem_cons_succ]
    by_cases hlast : j + 1 < x.length - 1
    · rw [List.getElem_append_left (by omega)]
      exact add_pos (hmem j (by omega)) (hmem (j + 1) (by omega))
    · rw [List.getElem_append_right (by omega)]
      simp only [List.getElem_singleton, add_zero]
      exact hmem j (by omega)

/-- Positive densities on two or more points, without abscissae or with as many increasing ones, have positive masses. -/
theorem masses_pos (pdf : List α) (hpos : ∀ v ∈ pdf, 0 < v) (h2 : 2 ≤ pdf.length) (xi : Option (List α))
    (hxi : ∀ x, xi = some x → x.Pairwise (· < ·) ∧ x.length = pdf.length) :
    ∃ m, masses pdf xi = .ok m ∧ m.length = pdf.length ∧ ∀ v ∈ m, 0 < v := by
  cases xi with
  | none => exact ⟨pdf, rfl, rfl, hpos⟩
  | some x =>
    obtain ⟨h3, h4⟩ := hxi x rfl
    obtain ⟨h5, h6⟩ := cell_pos x h3 (by omega)
    refine ⟨_, by rw [masses]; exact if_pos (by omega), by rw [List.length_zipWith]; omega, ?_⟩
    intro v hv
    obtain ⟨i, hi, rfl⟩ := List.getElem_of_mem hv
    rw [List.getElem_zipWith]
    exact mul_pos (hpos _ (List.getElem_mem _)) (h6 _ (List.getElem_mem _))

theorem sum_pos_of (l : List α) (h : ∀ v ∈ l, 0 < v) (hl : l ≠ []) : 0 < l.sum := List.sum_pos l h hl

theorem resampled_anti (x f : List α) (hx : x.Pairwise (· < ·)) (h2 : 2 ≤ x.length) (hf : f.Pairwise (· ≥ ·)) (a b : α)
    (hab : a ≤ b) : (resampled (fun x f v => LevelX.npInterp v x f) x f a b).Pairwise (· ≥ ·) := by
  unfold resampled
  rw [List.pairwise_map]
  refine List.pairwise_lt_range.imp ?_
  intro i j hij
  apply npInterp_anti x f hx hf
  have h1 : (i : α) ≤ j := by exact_mod_cast hij.le
  have h3 : (0 : α) ≤ (b - a) / ((x.length : α) - 1) := by
    apply div_nonneg (by linarith)
    have : (2 : α) ≤ x.length := by exact_mod_cast h2
    linarith
  nlinarith [mul_le_mul_of_nonneg_right h1 h3]

/-- **C311**  For a positive density on two or more points, with percentages not below the share of the largest cell and not
above `100 n/(n + 1.5e-8)`, `qlevels` succeeds; the levels lie within the values of the density, and higher percentages
have lower levels.  Partial: outside these percentages and for densities with zeros nothing is proved here. -/
theorem C311_levels_partial (del eps : α) (hdel : 0 < del) (nmax : List α → ℕ) (pdf : List α) (hpos : ∀ v ∈ pdf, 0 < v)
    (h2 : 2 ≤ pdf.length) (xi : Option (List α)) (hxi : ∀ x, xi = some x → x.Pairwise (· < ·) ∧ x.length = pdf.length)
    (hmax : ∀ x, x.length = pdf.length → pdf.length ≤ nmax x) (lo hi : α) (hb : ∀ v ∈ pdf, lo ≤ v ∧ v ≤ hi)
    (m : List α) (hm : masses pdf xi = .ok m) (M : α) (hM : ∀ v ∈ m, v ≤ M) (ps : List α) (hne : ps ≠ [])
    (hps : ∀ p ∈ ps, 100 * (M / m.sum) ≤ p ∧ p ≤ 100 * (pdf.length / (pdf.length + del))) :
    ∃ l, qlevels del eps nmax pdf ps xi = .ok l ∧ l.length = ps.length ∧ (∀ v ∈ l, lo ≤ v ∧ v ≤ hi) ∧
      ∀ (i j : ℕ) p q v w, ps[i]? = some p → ps[j]? = some q → l[i]? = some v → l[j]? = some w → p ≤ q → w ≤ v := by
  obtain ⟨m', hm', hml, hmpos⟩ := masses_pos pdf hpos h2 xi hxi
  rw [hm] at hm'
  cases hm'
  have hmn : m ≠ [] := by rintro rfl; simp at hml; omega
  have hS := sum_pos_of m hmpos hmn
  set n : α := (pdf.length : α) with hn
  have hn0 : (0 : α) < n := by rw [hn]; exact_mod_cast (by omega : 0 < pdf.length)
  have hnd : 0 < n + del := by linarith
  have hM0 : 0 < M := by
    obtain ⟨v, hv⟩ := List.exists_mem_of_ne_nil m hmn
    exact (hmpos v hv).trans_le (hM v hv)
  -- the sorted pairs
  set s := byHeight pdf m with hs
  have hsperm : s.Perm (pdf.zip m) := (List.reverse_perm _).trans (List.perm_insertionSort _ _)
  have hsl : s.length = pdf.length := by rw [hsperm.length_eq, List.length_zip, hml, min_self]
  have hmem1 : ∀ p ∈ s, p.1 ∈ pdf ∧ p.2 ∈ m := fun p hp => List.of_mem_zip (show (p.1, p.2) ∈ _ from hsperm.mem_iff.1 hp)
  have hsorted : (s.map Prod.fst).Pairwise (· ≥ ·) := by
    rw [List.pairwise_map, hs, byHeight, List.pairwise_reverse]
    haveI : Std.Total (fun p q : α × α => p.1 ≤ q.1) := ⟨fun p q => le_total p.1 q.1⟩
    haveI : IsTrans (α × α) (fun p q : α × α => p.1 ≤ q.1) := ⟨fun _ _ _ h1 h2 => le_trans h1 h2⟩
    exact List.pairwise_insertionSort (r := fun p q : α × α => p.1 ≤ q.1) (pdf.zip m)
  have hsum : (s.map Prod.snd).sum = m.sum := by
    rw [(hsperm.map Prod.snd).sum_eq, List.map_snd_zip (by omega)]
  have hsn : s.map Prod.snd ≠ [] := by
    intro h
    have := congrArg List.length h
    rw [List.length_map, hsl, List.length_nil] at this
    omega
  obtain ⟨c1, c2⟩ := cumsum_sorted (s.map Prod.snd) 0 (by
    intro v hv
    obtain ⟨p, hp, rfl⟩ := List.mem_map.1 hv
    exact hmpos _ (hmem1 p hp).2)
  have hlastc : (cumsum 0 (s.map Prod.snd)).getLast? = some m.sum := by
    rw [cumsum_last _ 0 hsn, zero_add, hsum]
  set F : α → α := fun v => v / m.sum * n / (n + del) with hF
  have hFlt : ∀ u v, u < v → F u < F v := by
    intro u v huv
    simp only [hF]
    apply div_lt_div_of_pos_right _ hnd
    apply mul_lt_mul_of_pos_right _ hn0
    exact div_lt_div_of_pos_right huv hS
  have htab : cdfTable del s = ((cumsum 0 (s.map Prod.snd)).map F).zip (s.map Prod.fst) := by
    unfold cdfTable
    dsimp only
    rw [hlastc, Option.getD_some, hsl]
  have hxlen : ((cumsum 0 (s.map Prod.snd)).map F).length = pdf.length := by
    rw [List.length_map, cumsum_length, List.length_map, hsl]
  have hflen : (s.map Prod.fst).length = pdf.length := by rw [List.length_map, hsl]
  have hfst : (cdfTable del s).map Prod.fst = (cumsum 0 (s.map Prod.snd)).map F := by
    rw [htab, List.map_fst_zip (by omega)]
  have hsnd : (cdfTable del s).map Prod.snd = s.map Prod.fst := by
    rw [htab, List.map_snd_zip (by omega)]
  have hxs : ((cumsum 0 (s.map Prod.snd)).map F).Pairwise (· < ·) := by
    rw [List.pairwise_map]; exact c1.imp fun h => hFlt _ _ h
  have hFS : F m.sum = n / (n + del) := by simp only [hF]; rw [div_self hS.ne', one_mul]
  have hle : ∀ v ∈ cumsum 0 (s.map Prod.snd), v ≤ m.sum := by
    intro v hv
    rw [List.getLast?_eq_getElem?] at hlastc
    obtain ⟨i2, e2⟩ := List.getElem?_eq_some_iff.1 hlastc
    obtain ⟨i, hi, rfl⟩ := List.getElem_of_mem hv
    rw [← e2]
    rcases Nat.lt_or_ge i ((cumsum 0 (s.map Prod.snd)).length - 1) with h | h
    · exact (List.pairwise_iff_getElem.1 c1 _ _ _ _ h).le
    · have : i = (cumsum 0 (s.map Prod.snd)).length - 1 := by omega
      subst this; exact le_rfl
  have hkeep : keep (cdfTable del s) = cdfTable del s := by
    apply keep_all _ (by rw [hfst]; exact hxs)
    intro p hp
    have : p.1 ∈ (cdfTable del s).map Prod.fst := List.mem_map.2 ⟨p, hp, rfl⟩
    rw [hfst] at this
    obtain ⟨v, hv, hpv⟩ := List.mem_map.1 this
    rw [← hpv]
    have h1 : F v ≤ F m.sum := by
      rcases (hle v hv).lt_or_eq with h | h
      · exact (hFlt _ _ h).le
      · rw [h]
    rw [hFS] at h1
    have : n / (n + del) < 1 := by rw [div_lt_one hnd]; linarith
    linarith
  -- the first entry of the table
  obtain ⟨p0, s', hs0⟩ : ∃ p0 s', s = p0 :: s' := by
    cases hsc : s with
    | nil => rw [hsc] at hsl; simp at hsl; omega
    | cons p l => exact ⟨p, l, rfl⟩
  have hfirst : ((cumsum 0 (s.map Prod.snd)).map F)[0]? = some (F p0.2) := by
    rw [hs0]; simp [cumsum]
  have hlast : ((cumsum 0 (s.map Prod.snd)).map F).getLast? = some (n / (n + del)) := by
    rw [List.getLast?_map, hlastc, Option.map_some, hFS]
  have hlow : F p0.2 ≤ M / m.sum := by
    have h1 : p0.2 ≤ M := hM _ (hmem1 p0 (by rw [hs0]; simp)).2
    have h3 : 0 < p0.2 := hmpos _ (hmem1 p0 (by rw [hs0]; simp)).2
    simp only [hF]
    rw [div_le_iff₀ hnd]
    have h4 : p0.2 / m.sum ≤ M / m.sum := div_le_div_of_nonneg_right h1 hS.le
    have h5 : 0 ≤ M / m.sum := by positivity
    have h6 : p0.2 / m.sum * n ≤ M / m.sum * n := mul_le_mul_of_nonneg_right h4 hn0.le
    nlinarith [mul_nonneg h5 hdel.le]
  have hin : ∀ v ∈ ps.map (· / 100), F p0.2 ≤ v ∧ v ≤ n / (n + del) := by
    intro v hv
    obtain ⟨p, hp, rfl⟩ := List.mem_map.1 hv
    obtain ⟨h3, h4⟩ := hps p hp
    constructor
    · rw [le_div_iff₀ (by norm_num)]; linarith
    · rw [div_le_iff₀ (by norm_num)]; linarith
  obtain ⟨G, y, hG, t1, t2, t3⟩ := C50_general_partial eps (fun x f v => LevelX.npInterp v x f) nmax
    ((cumsum 0 (s.map Prod.snd)).map F) (s.map Prod.fst) (ps.map (· / 100)) hxs (by omega) (by omega) (by simpa using hne)
    (F p0.2) (n / (n + del)) hfirst hlast hin (by rw [hxlen]; exact hmax _ hxlen)
  have hab : F p0.2 < n / (n + del) := by
    have h3 := hlast
    rw [List.getLast?_eq_getElem?] at h3
    obtain ⟨i1, e1⟩ := List.getElem?_eq_some_iff.1 hfirst
    obtain ⟨i2, e2⟩ := List.getElem?_eq_some_iff.1 h3
    rw [← e1, ← e2]
    exact List.pairwise_iff_getElem.1 hxs _ _ _ _ (by omega)
  have hfb : ∀ v ∈ s.map Prod.fst, lo ≤ v ∧ v ≤ hi := by
    intro v hv
    obtain ⟨p, hp, rfl⟩ := List.mem_map.1 hv
    exact hb _ (hmem1 p hp).1
  have hGa : G.Pairwise (· ≥ ·) := by
    rcases hG with rfl | rfl
    · exact hsorted
    · exact resampled_anti _ _ hxs (by omega) hsorted _ _ hab.le
  have hfb' : ∀ v ∈ s.map Prod.fst, 0 ≤ v ∧ v ≤ hi := by
    intro v hv
    obtain ⟨p, hp, rfl⟩ := List.mem_map.1 hv
    exact ⟨(hpos _ (hmem1 p hp).1).le, (hb _ (hmem1 p hp).1).2⟩
  have hGb : ∀ lo', (∀ v ∈ s.map Prod.fst, lo' ≤ v ∧ v ≤ hi) → ∀ v ∈ G, lo' ≤ v ∧ v ≤ hi := by
    intro lo' h
    rcases hG with rfl | rfl
    · exact h
    · intro v hv
      obtain ⟨k, -, rfl⟩ := List.mem_map.1 hv
      exact npInterp_bounds lo' hi _ _ hxs (by
        intro h'
        rw [h'] at hxlen
        simp at hxlen; omega) (by
        intro h'
        rw [h'] at hflen
        simp at hflen; omega) h _
  have hw : ∀ (i : ℕ) w, y[i]? = some w → ∃ p, ps[i]? = some p ∧
      OnPolygon G ((((cumsum 0 (s.map Prod.snd)).map F).length - 1 : α) * (p / 100 - F p0.2) / (n / (n + del) - F p0.2)) w := by
    intro i w h
    have hi' := (List.getElem?_eq_some_iff.1 h).1
    rw [t2, List.length_map] at hi'
    refine ⟨ps[i], List.getElem?_eq_getElem hi', t3 i _ w ?_ h⟩
    rw [List.getElem?_map, List.getElem?_eq_getElem hi']; rfl
  have hclip : y.map (fun v => if v < 0 then 0 else v) = y := by
    conv_rhs => rw [← List.map_id y]
    apply List.map_congr_left
    intro v hv
    obtain ⟨i, hi', hvi⟩ := List.getElem_of_mem hv
    obtain ⟨p, -, h⟩ := hw i v (by rw [List.getElem?_eq_getElem hi', hvi])
    have := (polygon_bounds G 0 hi (hGb 0 hfb') _ v h).1
    rw [if_neg (not_lt.2 this)]; rfl
  refine ⟨y, ?_, by rw [t2, List.length_map], ?_, ?_⟩
  · unfold qlevels
    rw [if_neg (by
      rw [List.any_eq_true]
      rintro ⟨v, hv, h⟩
      have := hpos v hv
      rw [decide_eq_true_eq] at h
      linarith), if_neg (by
      rw [List.any_eq_true]
      rintro ⟨v, hv, h⟩
      obtain ⟨h3, h4⟩ := hps v hv
      rw [Bool.or_eq_true, decide_eq_true_eq, decide_eq_true_eq] at h
      have h5 : 0 < M / m.sum := div_pos hM0 hS
      have h6 : n / (n + del) < 1 := by rw [div_lt_one hnd]; linarith
      rcases h with h | h <;> linarith), if_neg (by rintro rfl; simp at h2), hm]
    dsimp only
    rw [if_neg hS.ne', ← hs, hkeep, hfst, hsnd, t1]
    dsimp only
    rw [hclip]
  · intro v hv
    obtain ⟨i, hi', hvi⟩ := List.getElem_of_mem hv
    obtain ⟨p, -, h⟩ := hw i v (by rw [List.getElem?_eq_getElem hi', hvi])
    exact polygon_bounds G lo hi (hGb lo hfb) _ v h
  · intro i j p q v w hp hq hv hw' hpq
    obtain ⟨p', hp', h3⟩ := hw i v hv
    obtain ⟨q', hq', h4⟩ := hw j w hw'
    rw [hp] at hp'; rw [hq] at hq'
    cases hp'; cases hq'
    refine polygon_anti G hGa _ _ v w h3 h4 ?_
    apply div_le_div_of_nonneg_right _ (by linarith)
    apply mul_le_mul_of_nonneg_left
    · have : p / 100 ≤ q / 100 := div_le_div_of_nonneg_right hpq (by norm_num)
      linarith
    · rw [hxlen]
      have : (2 : α) ≤ pdf.length := by exact_mod_cast h2
      linarith

/-- The hypotheses for the density 4, 3, 2, 1 with the largest share 40 per cent. -/
example : qlevels (15 / 1000000000 : ℚ) 0 (fun _ => 1000000) [1, 4, 3, 2] [40, 50] none =
    .ok [799999999 / 200000000, 1759999997 / 480000000] ∧ (100 : ℚ) * (4 / [1, 4, 3, 2].sum) ≤ 40 := by
  constructor <;> decide +kernel

/-- **C311**  (refuted)  For the density 4, 3, 2, 1 the level enclosing 10 per cent, asked for together with others, is below
all values of the density while that for 50 per cent is above 3.7, and the level for 100 per cent is above 2. -/
theorem C311_low_refuted : ∃ a b c d : ℚ,
    qlevels (15 / 1000000000) 0 (fun _ => 1000000) [4, 3, 2, 1] [10, 50, 90, 100] none = .ok [a, b, c, d] ∧
      a < 1 / 5 ∧ 37 / 10 < b ∧ 2 < d := by
  have h : ∃ l : List ℚ, qlevels (15 / 1000000000) 0 (fun _ => 1000000) [4, 3, 2, 1] [10, 50, 90, 100] none = .ok l ∧
      l.length = 4 ∧ l.getD 0 0 < 1 / 5 ∧ 37 / 10 < l.getD 1 0 ∧ 2 < l.getD 3 0 := by
    refine ⟨match qlevels (15 / 1000000000) 0 (fun _ => 1000000) [4, 3, 2, 1] [10, 50, 90, 100] none with
      | .ok l => l
      | .error _ => [], ?_, ?_, ?_, ?_, ?_⟩ <;> decide +kernel
  obtain ⟨l, h1, h2, h3, h4, h5⟩ := h
  match l, h2 with
  | [a, b, c, d], _ => exact ⟨a, b, c, d, h1, by simpa using h3, by simpa using h4, by simpa using h5⟩

/-- **C311**  (refuted)  The level of one percentage depends on the others asked for: 90 per cent alone and with 100. -/
theorem C311_context_refuted : ∃ a b c : ℚ,
    qlevels (15 / 1000000000) 0 (fun _ => 1000000) [4, 3, 2, 1] [90] none = .ok [a] ∧
    qlevels (15 / 1000000000) 0 (fun _ => 1000000) [4, 3, 2, 1] [90, 100] none = .ok [b, c] ∧ a < 9 / 5 ∧ 13 / 5 < b := by
  have h : ∃ l l' : List ℚ, qlevels (15 / 1000000000) 0 (fun _ => 1000000) [4, 3, 2, 1] [90] none = .ok l ∧
      qlevels (15 / 1000000000) 0 (fun _ => 1000000) [4, 3, 2, 1] [90, 100] none = .ok l' ∧
      l.length = 1 ∧ l'.length = 2 ∧ l.getD 0 0 < 9 / 5 ∧ 13 / 5 < l'.getD 0 0 := by
    refine ⟨match qlevels (15 / 1000000000) 0 (fun _ => 1000000) [4, 3, 2, 1] [90] none with
      | .ok l => l
      | .error _ => [], match qlevels (15 / 1000000000) 0 (fun _ => 1000000) [4, 3, 2, 1] [90, 100] none with
      | .ok l => l
      | .error _ => [], ?_, ?_, ?_, ?_, ?_, ?_⟩ <;> decide +kernel
  obtain ⟨l, l', h1, h1', h2, h2', h3, h4⟩ := h
  match l, l', h2, h2' with
  | [a], [b, c], _, _ => exact ⟨a, b, c, h1, h1', by simpa using h3, by simpa using h4⟩

/-- **C312**  (refuted)  A density that is positive at a single point has no levels: the call raises ZeroDivisionError. -/
theorem C312_single_refuted (del eps : α) (hdel : 0 < del) (nmax : List α → ℕ) (v : α) (hv : 0 < v) (ps : List α) (hne : ps ≠ [])
    (hps : ∀ p ∈ ps, 0 ≤ p ∧ p ≤ 100) : qlevels del eps nmax [v] ps none = .error .zeroDivision := by
  have hk : keep (cdfTable del (byHeight [v] [v])) = [(v / v * 1 / (1 + del), v)] := by
    have : cdfTable del (byHeight [v] [v]) = [(v / v * 1 / (1 + del), v)] := by
      simp [cdfTable, byHeight, cumsum]
    rw [this, keep, if_pos]
    rw [div_self hv.ne', one_mul, div_lt_one (by linarith)]
    linarith
  unfold qlevels
  rw [if_neg (by simpa using hv.le), if_neg (by
    rw [List.any_eq_true]
    rintro ⟨w, hw, h⟩
    have := hps w hw
    rw [Bool.or_eq_true, decide_eq_true_eq, decide_eq_true_eq] at h
    rcases h with h | h <;> linarith), if_neg (by simp)]
  simp only [masses]
  rw [if_neg (by simpa using hv.ne'), hk]
  have : tranproc0 eps (fun x f v => LevelX.npInterp v x f) nmax [v / v * 1 / (1 + del)] [v] (ps.map (· / 100)) =
      .error .zeroDivision := by
    cases ps with
    | nil => exact absurd rfl hne
    | cons p ps =>
      simp [tranproc0, trangood, sortPairs, diff, mustResample, resample]
  simp only [List.map_cons, List.map_nil, this]

end Wafo.QLev
