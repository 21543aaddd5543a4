import Mathlib.Data.List.Perm.Basic
import Mathlib.Data.List.Sort
import Verif.Turning.Props
import Verif.Turning.TcProps
import Verif.Peaks.Model

set_option linter.unusedSectionVars false

/-!
Property C220: `findpeaks` returns the highest peaks.
-/

namespace Wafo.Peaks
open Wafo.Turning

variable {α : Type*} [Field α] [LinearOrder α] [IsStrictOrderedRing α]

/-- What numpy's `argsort` guarantees: a permutation of the indices that sorts the values in increasing order. -/
def IsArgsort (argsort : List α → List ℕ) : Prop :=
  ∀ v : List α, (argsort v).Perm (List.range v.length) ∧ ((argsort v).map fun j => v.getD j 0).Pairwise (· ≤ ·)

/-- The signal rises to sample `i`, by a positive amount, and either falls from there by a positive amount or ends. -/
def IsPeak (x : List α) (i : ℕ) : Prop :=
  (∃ p, p < i ∧ MonoOn true x p i ∧ StrictChange true x p i) ∧
    (i = x.length - 1 ∨ ∃ q, i < q ∧ MonoOn false x i q ∧ StrictChange false x i q)

theorem everyOther_tail_peaks (x : List α) : ∀ (r : List ℕ) (p : ℕ), Zig x true (p :: r) → (p :: r).getLast? = some (x.length - 1) →
    ∀ i ∈ everyOther r, IsPeak x i
  | [], _, _, _ => by simp [everyOther]
  | [q], p, h, hl => by
    intro i hi
    simp only [everyOther, List.mem_singleton] at hi
    subst hi
    refine ⟨⟨p, h.1, h.2.1, h.2.2.1⟩, Or.inl ?_⟩
    simpa using hl
  | q :: s :: r, p, h, hl => by
    intro i hi
    simp only [everyOther, List.mem_cons] at hi
    obtain ⟨h1, h2, h3, h4, h5, h6, h7⟩ := h
    rcases hi with rfl | hi
    · exact ⟨⟨p, h1, h2, h3⟩, Or.inr ⟨s, h4, h5, h6⟩⟩
    · exact everyOther_tail_peaks x r s (by simpa using h7) (by simpa using hl) i hi

theorem zig_head_le (x : List α) : ∀ (r : List ℕ) (up : Bool) (p : ℕ), Zig x up (p :: r) → ∀ i ∈ p :: r, p ≤ i
  | [], _, p, _ => by simp
  | q :: r, up, p, h => by
    intro i hi
    rcases List.mem_cons.1 hi with rfl | hi
    · exact le_rfl
    · exact h.1.le.trans (zig_head_le x r (!up) q h.2.2.2 i hi)

/-- A sample that is larger than both neighbours is one of the maxima. -/
theorem strict_mem (x : List α) (i : ℕ) {a b c : α} (ha : x[i]? = some a) (hb : x[i + 1]? = some b) (hc : x[i + 2]? = some c)
    (hab : a < b) (hcb : c < b) : ∀ (r : List ℕ) (p : ℕ), Zig x true (p :: r) → (p :: r).getLast? = some (x.length - 1) → p ≤ i + 1 →
    i + 1 ∈ everyOther r
  | [], p, _, hl, hp => by
    exfalso
    have hlen := (List.getElem?_eq_some_iff.1 hc).1
    simp at hl
    omega
  | [q], p, h, hl, hp => by
    exfalso
    have hlen := (List.getElem?_eq_some_iff.1 hc).1
    have hq : q = x.length - 1 := by simpa using hl
    have := h.2.1 (i + 1) (i + 2) b c hp (by omega) (by omega) hb hc
    simp at this
    exact absurd hcb (not_lt.2 this)
  | q :: s :: r, p, h, hl, hp => by
    obtain ⟨h1, h2, h3, h4, h5, h6, h7⟩ := h
    simp only [everyOther, List.mem_cons]
    by_cases e : i + 1 = q
    · exact Or.inl e
    · right
      rcases lt_or_gt_of_ne e with hlt | hgt
      · exfalso
        have := h2 (i + 1) (i + 2) b c hp (by omega) (by omega) hb hc
        simp at this
        exact absurd hcb (not_lt.2 this)
      · have hs : s ≤ i + 1 := by
          by_contra hs
          have := h5 i (i + 1) a b (by omega) (by omega) (by omega) ha hb
          simp at this
          exact absurd hab (not_lt.2 this)
        exact strict_mem x i ha hb hc hab hcb r s (by simpa using h7) (by simpa using hl) hs

theorem everyOther_sublist : ∀ l : List ℕ, (everyOther l).Sublist l
  | [] => by simp [everyOther]
  | [a] => by simp [everyOther]
  | a :: b :: l => by
    simp only [everyOther]
    exact List.Sublist.cons_cons a ((everyOther_sublist l).cons b)

/-! ### Selection of the highest peaks -/

/-- The indices that are selected without `min_p`: as many as there are, but at most `n`, in order of decreasing height, and no index that is left out is
higher than one that is kept. -/
theorem select_spec {argsort : List α → List ℕ} (ha : IsArgsort argsort) (flat : List α) (dmax : α) (n : ℕ) (ind : List ℕ) :
    ∃ rest : List ℕ, (select argsort flat dmax n 0 ind ++ rest).Perm ind ∧ (select argsort flat dmax n 0 ind).length = min n ind.length ∧
      (select argsort flat dmax n 0 ind).Pairwise (fun i j => flat.getD j 0 ≤ flat.getD i 0) ∧
      ∀ i ∈ select argsort flat dmax n 0 ind, ∀ j ∈ rest, flat.getD j 0 ≤ flat.getD i 0 := by
  unfold select
  by_cases h0 : ind.length = 0
  · rw [if_pos h0]
    have : ind = [] := List.length_eq_zero_iff.1 h0
    subst this
    exact ⟨[], by simp, by simp, by simp, by simp⟩
  rw [if_neg h0]
  dsimp only
  rw [if_neg (lt_irrefl _)]
  generalize hv : (ind.map fun i => flat.getD i 0) = v
  have hvl : v.length = ind.length := by rw [← hv]; simp
  obtain ⟨hp, hs⟩ := ha v
  -- all indices in decreasing order
  set all : List ℕ := (argsort v).reverse.map fun j => ind.getD j 0 with hall
  have hperm : all.Perm ind := by
    have h1 : all.Perm ((List.range ind.length).map fun j => ind.getD j 0) := by
      rw [hall, ← hvl]
      exact ((List.reverse_perm _).trans hp).map _
    have h2 : (List.range ind.length).map (fun j => ind.getD j 0) = ind := by
      apply List.ext_getElem
      · simp
      · intro i h1 h2
        simp [List.getD, List.getElem?_eq_getElem h2]
    rwa [h2] at h1
  have hsort : all.Pairwise (fun i j => flat.getD j 0 ≤ flat.getD i 0) := by
    rw [hall, List.pairwise_map, List.pairwise_reverse]
    rw [List.pairwise_map] at hs
    refine hs.imp_of_mem ?_
    intro j j' hj hj' hle
    have hj1 : j < ind.length := by rw [← hvl]; exact List.mem_range.1 (hp.mem_iff.1 hj)
    have hj2 : j' < ind.length := by rw [← hvl]; exact List.mem_range.1 (hp.mem_iff.1 hj')
    have e : ∀ j, j < ind.length → v.getD j 0 = flat.getD (ind.getD j 0) 0 := by
      intro j hj
      rw [← hv]
      simp [List.getD, List.getElem?_eq_getElem hj]
    rw [e j hj1, e j' hj2] at hle
    exact hle
  have hsel : ((argsort v).reverse.take (min n ind.length)).map (fun j => ind.getD j 0) = all.take (min n ind.length) := by
    rw [hall, List.map_take]
  rw [hsel]
  refine ⟨all.drop (min n ind.length), by rw [List.take_append_drop]; exact hperm, ?_, hsort.sublist (List.take_sublist _ _), ?_⟩
  · rw [List.length_take, hperm.length_eq]
    omega
  · intro i hi j hj
    have := hsort
    rw [← List.take_append_drop (min n ind.length) all, List.pairwise_append] at this
    exact this.2.2 i hi j hj

theorem select_minp (argsort : List α → List ℕ) (flat : List α) (dmax minp : α) (hm : 0 < minp) (n : ℕ) (ind : List ℕ) :
    select argsort flat dmax n minp ind = (select argsort flat dmax n 0 ind).filter fun i => minp * dmax < flat.getD i 0 := by
  unfold select
  by_cases h0 : ind.length = 0
  · simp [h0]
  · simp [h0, hm]

/-! ### C220 -/

/-- `maxOf` is the largest sample. -/
theorem maxOf_spec {x : List α} {d : α} (h : maxOf x = .ok d) : d ∈ x ∧ ∀ a ∈ x, a ≤ d := by
  rcases x with _ | ⟨a, l⟩
  · simp [maxOf] at h
  · have hd : l.foldl max a = d := Except.ok.inj h
    have gen : ∀ (l : List α) (a : α), l.foldl max a ∈ a :: l ∧ ∀ b ∈ a :: l, b ≤ l.foldl max a := by
      intro l
      induction l with
      | nil => intro a; simp
      | cons c l ih =>
        intro a
        obtain ⟨h1, h2⟩ := ih (max a c)
        simp only [List.foldl_cons]
        refine ⟨?_, ?_⟩
        · rcases List.mem_cons.1 h1 with h | h
          · rw [h]
            rcases max_choice a c with e | e <;> rw [e] <;> simp
          · simp [h]
        · intro b hb
          rcases List.mem_cons.1 hb with rfl | hb
          · exact (le_max_left _ _).trans (h2 _ List.mem_cons_self)
          · rcases List.mem_cons.1 hb with rfl | hb
            · exact (le_max_right _ _).trans (h2 _ List.mem_cons_self)
            · exact h2 _ (List.mem_cons_of_mem _ hb)
    rw [← hd]
    exact gen l a

/-- C220 for a vector without rainflow filter (`min_h = 0`): let the signal have two extrema and not start with a plateau followed by a drop.  There is a list
of different peaks that contains all samples larger than both neighbours; `findpeaks` returns, in order of decreasing height, the `n` highest of them, and of these
the ones that are higher than `min_p` times the maximum. -/
theorem C220_vector_partial {argsort : List α → List ℕ} (ha : IsArgsort argsort) (x : List α) (e : List ℕ) (he : Cross.findextrema x = .ok e)
    (h2 : 2 ≤ e.length) (hp : NoPlateauDrop x) (n : ℕ) (minp : α) (hm : 0 ≤ minp) :
    ∃ (d : α) (peaks kept rest res : List ℕ), d ∈ x ∧ (∀ a ∈ x, a ≤ d) ∧
      findpeaks1 (fun r => findtp r false none) argsort x n minp = .ok res ∧
      (∀ i ∈ peaks, IsPeak x i) ∧ peaks.Pairwise (· < ·) ∧
      (∀ i a b c, x[i]? = some a → x[i + 1]? = some b → x[i + 2]? = some c → a < b → c < b → i + 1 ∈ peaks) ∧
      (kept ++ rest).Perm peaks ∧ kept.length = min n peaks.length ∧ kept.Pairwise (fun i j => x.getD j 0 ≤ x.getD i 0) ∧
      (∀ i ∈ kept, ∀ j ∈ rest, x.getD j 0 ≤ x.getD i 0) ∧
      res = if 0 < minp then kept.filter fun i => minp * d < x.getD i 0 else kept := by
  have htot := C08_findtp_total x e he
  rw [if_pos h2] at htot
  obtain ⟨tp, htp⟩ := htot
  obtain ⟨hz, hl⟩ := C08_findtp_alternates_partial x tp htp hp
  have hx : x ≠ [] := by
    rintro rfl
    obtain ⟨m, a, b, h0, -⟩ := hp
    simp at h0
  obtain ⟨d, hd⟩ : ∃ d, maxOf x = .ok d := by
    rcases x with _ | ⟨a, l⟩
    · exact absurd rfl hx
    · exact ⟨_, rfl⟩
  obtain ⟨hd1, hd2⟩ := maxOf_spec hd
  rcases tp with _ | ⟨p, r⟩
  · simp at hl
  have hrow : rowPeaks (fun r => findtp r false none) x = .ok (everyOther r) := by
    simp [rowPeaks, htp]
  obtain ⟨rest, s1, s2, s3, s4⟩ := select_spec ha x d n (everyOther r)
  have hsorted : ∀ (r : List ℕ) (up : Bool) (p : ℕ), Zig x up (p :: r) → (p :: r).Pairwise (· < ·) := by
    intro r
    induction r with
    | nil => intro up p _; simp
    | cons q r ih =>
      intro up p h
      refine List.pairwise_cons.2 ⟨?_, ih (!up) q h.2.2.2⟩
      intro i hi
      exact lt_of_lt_of_le h.1 (zig_head_le x r (!up) q h.2.2.2 i hi)
  refine ⟨d, everyOther r, select argsort x d n 0 (everyOther r), rest, select argsort x d n minp (everyOther r), hd1, hd2, ?_,
    everyOther_tail_peaks x r p hz hl, ?_, ?_, s1, s2, s3, s4, ?_⟩
  · simp [findpeaks1, hd, hrow]
  · have h1 := hsorted r true p hz
    exact ((List.pairwise_cons.1 h1).2).sublist (everyOther_sublist r)
  · intro i a b c h1 h2 h3 h4 h5
    refine strict_mem x i h1 h2 h3 h4 h5 r p hz hl ?_
    by_contra hlt
    obtain ⟨i0, r', up, hst, hm', hi0, hsc, ⟨rfl, h7⟩ | ⟨rfl, h7⟩⟩ := findtpBase_cases x _ (findtp_none_eq x _ htp)
    · obtain ⟨rfl, -⟩ := List.cons.inj h7
      have := hm' i (i + 1) a b (by omega) (by omega) (by omega) h1 h2
      simp at this
      exact absurd h4 (not_lt.2 this)
    · obtain ⟨rfl, -⟩ := List.cons.inj h7
      omega
  · by_cases h0 : 0 < minp
    · rw [if_pos h0, select_minp argsort x d minp h0]
    · have : minp = 0 := le_antisymm (not_lt.1 h0) hm
      subst this
      rw [if_neg h0]

/-- A signal with fewer than two extrema, for example with a single peak, is documented to give its maximum; there is a TypeError, since `findtp` returns
`None`. -/
theorem C220_few_refuted (argsort : List α → List ℕ) (x : List α) (e : List ℕ) (he : Cross.findextrema x = .ok e) (h2 : e.length < 2) (n : ℕ) (minp : α) :
    findpeaks1 (fun r => findtp r false none) argsort x n minp = .error .typeError := by
  have htot := C08_findtp_total x e he
  rw [if_neg (by omega)] at htot
  rcases x with _ | ⟨a, l⟩
  · rw [C07_findextrema_short [] (by simp)] at he
    simp at he
  · simp [findpeaks1, maxOf, rowPeaks, htot]

/-- A matrix with one row is an IndexError (or the error of its turning points), whatever it contains. -/
theorem C220_one_row_refuted (tpf : List α → Except PyErr (Option (List ℕ))) (argsort : List α → List ℕ) (r : List α) (n : ℕ) (minp : α) :
    ∃ err, findpeaks2 tpf argsort [r] n minp = .error err ∧ ∀ ind, rowPeaks tpf r = .ok ind → r ≠ [] → err = .indexError := by
  unfold findpeaks2
  cases hmax : maxOf [r].flatten with
  | error e =>
    refine ⟨e, rfl, ?_⟩
    intro ind _ hr
    rcases r with _ | ⟨a, l⟩
    · exact absurd rfl hr
    · simp [maxOf] at hmax
  | ok dmax =>
    cases hrow : rowPeaks tpf r with
    | error e => exact ⟨e, by simp [List.range_succ, matrixRow, hrow, bind, Except.bind], by simp⟩
    | ok ind => exact ⟨.indexError, by simp [List.range_succ, matrixRow, hrow, bind, Except.bind], by simp⟩

/-- The row of a matrix with index `i`. -/
def row (d : List (List α)) (i : ℕ) : List α := d.getD i []

theorem mapM_flatten_mem {β : Type*} (f : ℕ → Except PyErr (List β)) : ∀ (l : List ℕ) (rows : List (List β)), l.mapM f = .ok rows →
    ∀ v ∈ rows.flatten, ∃ i ∈ l, ∃ r, f i = .ok r ∧ v ∈ r
  | [], rows, h => by
    have : rows = [] := by simpa [pure, Except.pure] using h.symm
    subst this; simp
  | i :: l, rows, h => by
    rw [List.mapM_cons] at h
    cases hf : f i with
    | error e => rw [hf] at h; simp [bind, Except.bind] at h
    | ok r =>
      rw [hf] at h
      cases hl : l.mapM f with
      | error e => rw [hl] at h; simp [bind, Except.bind] at h
      | ok rs =>
        rw [hl] at h
        have : rows = r :: rs := by
          have := Except.ok.inj (show Except.ok (r :: rs) = Except.ok rows from h)
          exact this.symm
        subst this
        intro v hv
        rw [List.flatten_cons, List.mem_append] at hv
        rcases hv with hv | hv
        · exact ⟨i, List.mem_cons_self, r, hf, hv⟩
        · obtain ⟨j, hj, s, hs, hvs⟩ := mapM_flatten_mem f l rs hl v hv
          exact ⟨j, List.mem_cons_of_mem _ hj, s, hs, hvs⟩

/-- C220 for a matrix with `m` columns: every index that is returned belongs to a maximum of its row which is larger than the values in the same column of the
rows before and after. -/
theorem C220_matrix {argsort : List α → List ℕ} (ha : IsArgsort argsort) (tpf : List α → Except PyErr (Option (List ℕ))) (d : List (List α)) (n : ℕ) (minp : α)
    (hm : 0 ≤ minp) {res : List ℕ} (h : findpeaks2 tpf argsort d n minp = .ok res) :
    ∀ v ∈ res, ∃ i j ind, v = j + i * (row d 0).length ∧ i < d.length ∧ rowPeaks tpf (row d i) = .ok ind ∧ j ∈ ind ∧
      (0 < i → (row d (i - 1)).getD j 0 < (row d i).getD j 0) ∧ (i + 1 < d.length → (row d (i + 1)).getD j 0 < (row d i).getD j 0) := by
  unfold findpeaks2 at h
  cases hmax : maxOf d.flatten with
  | error e => rw [hmax] at h; simp at h
  | ok dmax =>
    rw [hmax] at h
    dsimp only at h
    cases hrows : (List.range d.length).mapM (matrixRow tpf d (d.getD 0 []).length) with
    | error e => rw [hrows] at h; simp at h
    | ok rows =>
      rw [hrows] at h
      have hres := Except.ok.inj h
      intro v hv
      have hv' : v ∈ rows.flatten := by
        rw [← hres] at hv
        obtain ⟨rest, s1, -⟩ := select_spec ha d.flatten dmax n rows.flatten
        have h1 : v ∈ select argsort d.flatten dmax n 0 rows.flatten := by
          rcases eq_or_lt_of_le hm with h0 | h0
          · rw [← h0] at hv; exact hv
          · rw [select_minp argsort _ _ minp h0] at hv
            exact (List.mem_filter.1 hv).1
        exact s1.mem_iff.1 (List.mem_append_left _ h1)
      obtain ⟨i, hi, r, hr, hvr⟩ := mapM_flatten_mem _ _ _ hrows v hv'
      have hi' : i < d.length := List.mem_range.1 hi
      unfold matrixRow at hr
      cases hrow : rowPeaks tpf (d.getD i []) with
      | error e => rw [hrow] at hr; simp at hr
      | ok ind =>
        rw [hrow] at hr
        dsimp only at hr
        split at hr
        · rename_i hi0
          split at hr
          · simp at hr
          · have := Except.ok.inj hr
            subst this
            obtain ⟨j, hj, rfl⟩ := List.mem_map.1 hvr
            obtain ⟨hj1, hj2⟩ := List.mem_filter.1 hj
            exact ⟨i, j, ind, rfl, hi', hrow, hj1, fun h0 => by omega, fun _ => by simpa [above, row] using hj2⟩
        · rename_i hi0
          split at hr
          · rename_i hlast
            have := Except.ok.inj hr
            subst this
            obtain ⟨j, hj, rfl⟩ := List.mem_map.1 hvr
            obtain ⟨hj1, hj2⟩ := List.mem_filter.1 hj
            exact ⟨i, j, ind, rfl, hi', hrow, hj1, fun _ => by simpa [above, row] using hj2, fun h0 => by omega⟩
          · have := Except.ok.inj hr
            subst this
            obtain ⟨j, hj, rfl⟩ := List.mem_map.1 hvr
            obtain ⟨hj1, hj2⟩ := List.mem_filter.1 hj
            rw [Bool.and_eq_true] at hj2
            exact ⟨i, j, ind, rfl, hi', hrow, hj1, fun _ => by simpa [above, row] using hj2.1, fun _ => by simpa [above, row] using hj2.2⟩

/-! ### Concrete cases -/

/-- Sorting the indices by insertion is an argsort. -/
def insArgsort (v : List ℚ) : List ℕ := (List.range v.length).insertionSort fun i j => v.getD i 0 ≤ v.getD j 0

theorem insArgsort_spec : IsArgsort insArgsort := by
  intro v
  refine ⟨List.perm_insertionSort _ _, ?_⟩
  rw [List.pairwise_map]
  have : Std.Total (fun i j : ℕ => v.getD i 0 ≤ v.getD j 0) := ⟨fun i j => le_total _ _⟩
  have : IsTrans ℕ (fun i j : ℕ => v.getD i 0 ≤ v.getD j 0) := ⟨fun i j k => le_trans⟩
  exact List.pairwise_insertionSort _ _

example : findpeaks1 (fun r => findtp r false none) insArgsort ([0, 2, 1, 5, 0, 3, 1] : List ℚ) 2 (1 / 2) = .ok [3, 5] := by decide +kernel
example : findpeaks1 (fun r => findtp r false none) insArgsort ([0, 2, 1] : List ℚ) 2 0 = .error .typeError := by decide +kernel
example : findpeaks2 (fun r => findtp r false none) insArgsort ([[0, 2, 1, 5, 0], [1, 3, 0, 4, 0]] : List (List ℚ)) 2 0 = .ok [3, 6] := by decide +kernel

end Wafo.Peaks
