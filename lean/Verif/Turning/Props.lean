import Verif.Turning.Lemmas
import Mathlib.Data.Rat.Defs
import Mathlib.Algebra.Order.Field.Rat
import Mathlib.Tactic.NormNum

/-!
Property theorems for extrema and turning points (C07 - C10).
-/

set_option linter.unusedSectionVars false

namespace Wafo.Turning
open Wafo.Cross

variable {α : Type*} [Field α] [LinearOrder α] [IsStrictOrderedRing α]

/-! ### C07 -/

/-- C07: `findextrema` cuts the signal into monotone stretches of alternating direction; each stretch
between two returned extrema, and the one after the last, changes the value strictly, and so does the
one before the first unless the signal starts with a plateau.  Without extrema the signal is
monotone. -/
theorem C07_findextrema_monotone (x : List α) (hx : 2 ≤ x.length) :
    ∃ l, findextrema x = .ok l ∧
    ((l = [] ∧ ∃ up, MonoOn up x 0 (x.length - 1)) ∨
      ∃ q r up, l = q :: r ∧ 0 < q ∧ MonoOn (!up) x 0 q ∧ Stretches x up q r ∧
        (x[0]? ≠ x[1]? → StrictChange (!up) x 0 q)) := by
  have hne : signs (diff x) 0 ≠ [] := by
    intro h
    have := congrArg List.length h
    simp [signs, diff_length] at this
    omega
  obtain ⟨l, hl⟩ := findcross0_ok _ hne
  refine ⟨l.map (· + 1), by simp [findextrema, findcross_none_eq, hl], ?_⟩
  obtain ⟨s, hs, hrun, hpre⟩ := findcross0_run _ _ hl
  rcases l with _ | ⟨i, r⟩
  · left
    refine ⟨rfl, decide (-s = 1), ?_⟩
    apply monoOn_of_sign x (-s) (by rcases hs with h | h <;> simp [h]) _ _ (by omega)
    intro k b _ _ hb
    exact hpre k b (by simp) hb
  · right
    refine ⟨i + 1, r.map (· + 1), decide (s = 1), rfl, by omega, ?_,
      stretches_of_altRun x r s i hs hrun, ?_⟩
    · rw [not_decide_sign s hs]
      obtain ⟨⟨b, hb, -⟩, -⟩ := hrun
      have hlen := (List.getElem?_eq_some_iff.1 hb).1
      simp [signs, diff_length] at hlen
      apply monoOn_of_sign x (-s) (by rcases hs with h | h <;> simp [h]) _ _ (by omega)
      intro k b _ hk hb
      refine hpre k b ?_ hb
      intro j hj
      simp at hj; omega
    · intro h01
      rw [not_decide_sign s hs]
      obtain ⟨⟨b, hb, -⟩, -⟩ := hrun
      have hlen := (List.getElem?_eq_some_iff.1 hb).1
      simp [signs, diff_length] at hlen
      have hm : MonoOn (decide (-s = 1)) x 0 (i + 1) := by
        apply monoOn_of_sign x (-s) (by rcases hs with h | h <;> simp [h]) _ _ (by omega)
        intro k b _ hk hb
        refine hpre k b ?_ hb
        intro j hj
        simp at hj; omega
      have h0 : (0 : ℕ) < x.length := by omega
      have h1 : 1 < x.length := by omega
      have hd := dsign x 0 x[0] x[1] (List.getElem?_eq_getElem h0) (List.getElem?_eq_getElem h1)
      have hle := hpre 0 _ (by intro j hj; omega) hd
      have hnz : sgn (0 : α) (x[1] - x[0]) ≠ 0 := by
        intro h2
        rw [sgn_eq_zero_iff] at h2
        apply h01
        rw [List.getElem?_eq_getElem h0, List.getElem?_eq_getElem h1]
        congr 1
        linarith
      refine strictChange_of x (-s) (by rcases hs with h | h <;> simp [h]) 0 (i + 1) (by omega)
        (by omega) hm _ hd ?_
      rcases hs with rfl | rfl <;> omega

example : findextrema ([0, 1, 1, 0, 2, 2] : List ℚ) = .ok [2, 3] := by decide +kernel

/-- A signal with fewer than two samples: `findextrema` reads outside the (empty) difference
signal. -/
theorem C07_findextrema_short (x : List α) (hx : x.length < 2) :
    findextrema x = .error .oobRead := by
  have : diff x = [] := by
    rcases x with _ | ⟨a, _ | ⟨b, l⟩⟩
    · rfl
    · rfl
    · simp at hx; omega
  simp [findextrema, this, findcross, signs, findcross0]

/-! ### Specification of turning points -/

/-- The indices are increasing and in range, and `x` is monotone and strictly changing between
consecutive ones, in alternating direction beginning with `up`. -/
def Zig (x : List α) : Bool → List ℕ → Prop
  | up, p :: q :: r => p < q ∧ MonoOn up x p q ∧ StrictChange up x p q ∧ Zig x (!up) (q :: r)
  | _, [p] => p < x.length
  | _, [] => True

/-- The signal does not start with a plateau that is followed by a drop: the first sample different
from `x[0]` is `x[1]`, or it is larger than `x[0]`. -/
def NoPlateauDrop (x : List α) : Prop :=
  ∃ m a b, x[0]? = some a ∧ x[m]? = some b ∧ a ≠ b ∧ (∀ k < m, x[k]? = some a) ∧ (m = 1 ∨ a < b)

theorem zig_of_stretches (x : List α) (r : List ℕ) : ∀ up p, Stretches x up p r →
    Zig x up (p :: (r ++ [x.length - 1])) := by
  induction r with
  | nil =>
    intro up p h
    exact ⟨h.1, h.2.1, h.2.2, (by have := h.1; omega : x.length - 1 < x.length)⟩
  | cons q r ih =>
    intro up p h
    exact ⟨h.1, h.2.2.1, h.2.2.2.1, ih _ _ h.2.2.2.2⟩

/-- What `findtp` computes in terms of `findextrema`, for every kind but `'astm'`. -/
theorem findtpBase_cases (x : List α) (tp : List ℕ)
    (h : findtpBase x false = .ok (some tp)) :
    ∃ i0 r up, Stretches x up i0 r ∧ MonoOn (!up) x 0 i0 ∧ 0 < i0 ∧
      (x[0]? ≠ x[1]? → StrictChange (!up) x 0 i0) ∧
      ((up = true ∧ tp = i0 :: (r ++ [x.length - 1])) ∨
       (up = false ∧ tp = 0 :: i0 :: (r ++ [x.length - 1]))) := by
  by_cases hx : 2 ≤ x.length
  · obtain ⟨l, hl, hcase⟩ := C07_findextrema_monotone x hx
    rcases hcase with ⟨rfl, -⟩ | ⟨i0, r, up, rfl, hi0, hm, hst, hsc⟩
    · simp [findtpBase, hl] at h
    · rcases r with _ | ⟨i1, r⟩
      · simp [findtpBase, hl] at h
      · refine ⟨i0, i1 :: r, up, hst, hm, hi0, hsc, ?_⟩
        obtain ⟨-, -, -, ⟨a, b, ha, hb, hab⟩, -⟩ := hst
        simp only [findtpBase, hl, ha, hb] at h
        cases up with
        | true =>
          left
          simp only [↓reduceIte] at hab
          rw [if_neg (by simp), if_neg (not_lt.2 hab.le)] at h
          simp only [Except.ok.injEq, Option.some.injEq] at h
          exact ⟨rfl, by rw [← h]; simp⟩
        | false =>
          right
          simp only [Bool.false_eq_true, ↓reduceIte] at hab
          rw [if_neg (by simp), if_pos hab] at h
          simp only [Except.ok.injEq, Option.some.injEq] at h
          exact ⟨rfl, by rw [← h]; simp⟩
  · have := C07_findextrema_short x (by omega)
    simp [findtpBase, this] at h

theorem findtp_none_eq (x : List α) (tp : List ℕ) (h : findtp x false none = .ok (some tp)) :
    findtpBase x false = .ok (some tp) := by
  unfold findtp at h
  simp only [Bool.false_eq_true, ↓reduceIte, reduceCtorEq, decide_false] at h
  cases hb : findtpBase x false with
  | error e => rw [hb] at h; simp at h
  | ok o =>
    cases o with
    | none => rw [hb] at h; simp at h
    | some m => rw [hb] at h; simpa using h

theorem strict_first (x : List α) (i0 : ℕ) (r : List ℕ) (hm : MonoOn true x 0 i0)
    (hst : Stretches x false i0 r) (hsc : x[0]? ≠ x[1]? → StrictChange true x 0 i0)
    (hp : NoPlateauDrop x) : StrictChange true x 0 i0 := by
  obtain ⟨m, a, b, ha, hb, hab, hk, hcase⟩ := hp
  rcases hcase with rfl | hlt
  · apply hsc; rw [ha, hb]; simpa using hab
  · have hmlen := (List.getElem?_eq_some_iff.1 hb).1
    -- the first stretch falls strictly from i0 to some q'
    have hfall : ∃ q', i0 < q' ∧ q' < x.length ∧ MonoOn false x i0 q' ∧
        StrictChange false x i0 q' := by
      rcases r with _ | ⟨q', r⟩
      · exact ⟨x.length - 1, hst.1, by have := hst.1; omega, hst.2.1, hst.2.2⟩
      · exact ⟨q', hst.1, hst.2.1, hst.2.2.1, hst.2.2.2.1⟩
    obtain ⟨q', h1, h2, h3, c, d, hc, hd, hcd⟩ := hfall
    simp only [Bool.false_eq_true, ↓reduceIte] at hcd
    have hmi : m ≤ i0 := by
      by_contra hcon
      have hmi : i0 < m := by omega
      have : c = a := by
        have := hk i0 hmi; rw [hc] at this; exact Option.some.inj this
      subst this
      have hq'm : m ≤ q' := by
        by_contra hcon2
        have := hk q' (by omega); rw [hd] at this
        rw [Option.some.inj this] at hcd
        exact lt_irrefl _ hcd
      have := h3 i0 m c b (le_refl _) (by omega) hq'm hc hb
      simp only [Bool.false_eq_true, ↓reduceIte] at this
      exact absurd hlt (not_lt.2 this)
    refine ⟨a, c, ha, hc, ?_⟩
    have := hm m i0 b c (Nat.zero_le _) hmi (le_refl _) hb hc
    simp only [↓reduceIte] at this ⊢
    exact lt_of_lt_of_le hlt this

/-! ### C08 -/

/-- C08 (partial): unless the signal starts with a plateau followed by a drop, the turning points are
strictly increasing indices in range, end with the last sample, and the signal strictly rises and
falls in turn between them, starting with a rise.  Missing: the excluded start (`C08_refuted`). -/
theorem C08_findtp_alternates_partial (x : List α) (tp : List ℕ)
    (h : findtp x false none = .ok (some tp)) (hp : NoPlateauDrop x) :
    Zig x true tp ∧ tp.getLast? = some (x.length - 1) := by
  obtain ⟨i0, r, up, hst, hm, hi0, hsc, ⟨rfl, rfl⟩ | ⟨rfl, rfl⟩⟩ :=
    findtpBase_cases x tp (findtp_none_eq x tp h)
  · refine ⟨zig_of_stretches x r true i0 hst, ?_⟩
    rw [← List.cons_append, List.getLast?_concat]
  · refine ⟨⟨hi0, hm, strict_first x i0 r hm hst hsc hp, zig_of_stretches x r false i0 hst⟩, ?_⟩
    rw [← List.cons_append, ← List.cons_append, List.getLast?_concat]

/-- C08 is false for signals that start with a plateau followed by a drop: the first two turning
points then have equal values. -/
theorem C08_refuted : ¬ ∀ (x : List ℚ) (tp : List ℕ), findtp x false none = .ok (some tp) →
    Zig x true tp := by
  intro h
  have h1 := h [1, 1, 0, 2] [0, 1, 2, 3] (by decide +kernel)
  obtain ⟨-, -, ⟨a, b, ha, hb, hab⟩, -⟩ := h1
  simp at ha hb hab
  rw [← ha, ← hb] at hab
  exact lt_irrefl _ hab

/-- `findtp` returns turning points whenever there are two extrema, and `None` otherwise. -/
theorem C08_findtp_total (x : List α) (l : List ℕ) (h : findextrema x = .ok l) :
    if 2 ≤ l.length then ∃ tp, findtp x false none = .ok (some tp)
    else findtp x false none = .ok none := by
  rcases l with _ | ⟨i0, _ | ⟨i1, r⟩⟩
  · simp [findtp, findtpBase, h]
  · simp [findtp, findtpBase, h]
  · rw [if_pos (by simp)]
    by_cases hx : 2 ≤ x.length
    · obtain ⟨l, hl, hcase⟩ := C07_findextrema_monotone x hx
      rw [h] at hl
      obtain rfl : _ = l := Except.ok.inj hl
      rcases hcase with ⟨h0, -⟩ | ⟨q, r', up, h0, -, -, hst, -⟩
      · simp at h0
      · obtain ⟨rfl, rfl⟩ := List.cons.inj h0
        obtain ⟨-, -, -, ⟨a, b, ha, hb, -⟩, -⟩ := hst
        simp [findtp, findtpBase, h, ha, hb]
    · rw [C07_findextrema_short x (by omega)] at h; simp at h

example : findtp ([0, 1, 1, 0, 2, 2] : List ℚ) false none = .ok (some [0, 2, 3, 5]) := by
  decide +kernel
example : NoPlateauDrop ([0, 1, 1, 0, 2, 2] : List ℚ) := by
  refine ⟨1, 0, 1, by simp, by simp, by norm_num, ?_, Or.inl rfl⟩
  intro k hk
  obtain rfl : k = 0 := by omega
  simp

/-! ### C09 -/

/-- Total variation of a sequence. -/
def tv : List α → α
  | a :: b :: l => |b - a| + tv (b :: l)
  | _ => 0

theorem tv_drop_step (x : List α) (k : ℕ) (a b : α) (ha : x[k]? = some a)
    (hb : x[k + 1]? = some b) : tv (x.drop k) = |b - a| + tv (x.drop (k + 1)) := by
  have h1 : k < x.length := (List.getElem?_eq_some_iff.1 ha).1
  have h2 : k + 1 < x.length := (List.getElem?_eq_some_iff.1 hb).1
  rw [List.drop_eq_getElem_cons h1, List.drop_eq_getElem_cons h2, tv]
  rw [List.getElem?_eq_getElem h1] at ha
  rw [List.getElem?_eq_getElem h2] at hb
  rw [Option.some.inj ha, Option.some.inj hb]

theorem tv_drop_mono (up : Bool) (x : List α) (p q : ℕ) (hpq : p ≤ q) (hm : MonoOn up x p q) :
    ∀ a b, x[p]? = some a → x[q]? = some b → tv (x.drop p) = |b - a| + tv (x.drop q) := by
  induction q, hpq using Nat.le_induction with
  | base => intro a b ha hb; rw [ha] at hb; rw [Option.some.inj hb]; simp
  | succ q hpq ih =>
    intro a b ha hb
    have hq1 : q + 1 < x.length := (List.getElem?_eq_some_iff.1 hb).1
    have hq : q < x.length := by omega
    have hc : x[q]? = some x[q] := List.getElem?_eq_getElem hq
    have h1 := ih (fun i j c d h1 h2 h3 h4 h5 => hm i j c d h1 h2 (by omega) h4 h5) a _ ha hc
    rw [h1, tv_drop_step x q _ b hc hb]
    have h2 := hm p q a _ (le_refl _) hpq (by omega) ha hc
    have h3 := hm q (q + 1) _ b hpq (by omega) (le_refl _) hc hb
    cases up with
    | true =>
      simp only [↓reduceIte] at h2 h3
      rw [abs_of_nonneg (by linarith), abs_of_nonneg (by linarith), abs_of_nonneg (by linarith)]
      ring
    | false =>
      simp only [Bool.false_eq_true, ↓reduceIte] at h2 h3
      rw [abs_of_nonpos (by linarith), abs_of_nonpos (by linarith), abs_of_nonpos (by linarith)]
      ring

/-- `m` are the samples of `x` at the indices `tp` (`x[tp]` in numpy). -/
def SamplesAt (x : List α) (tp : List ℕ) (m : List α) : Prop :=
  List.Forall₂ (fun k a => x[k]? = some a) tp m

theorem tv_last (x : List α) : tv (x.drop (x.length - 1)) = 0 := by
  have : (x.drop (x.length - 1)).length ≤ 1 := by simp; omega
  generalize x.drop (x.length - 1) = l at this
  rcases l with _ | ⟨a, _ | ⟨b, l⟩⟩
  · rfl
  · rfl
  · simp at this

theorem tv_stretches (x : List α) (r : List ℕ) : ∀ up p m, Stretches x up p r →
    SamplesAt x (p :: (r ++ [x.length - 1])) m → tv (x.drop p) = tv m := by
  induction r with
  | nil =>
    intro up p m hst hm
    rw [List.nil_append] at hm
    cases hm with
    | cons h1 h2 =>
      cases h2 with
      | cons h2 h3 =>
        cases h3
        rw [tv_drop_mono up x p _ hst.1.le hst.2.1 _ _ h1 h2, tv_last]
        simp [tv]
  | cons q r ih =>
    intro up p m hst hm
    rw [List.cons_append] at hm
    cases hm with
    | cons h1 h2 =>
      have h2' := h2
      cases h2 with
      | cons h2 h3 =>
        rw [tv_drop_mono up x p q hst.1.le hst.2.2.1 _ _ h1 h2, ih _ _ _ hst.2.2.2.2 h2']
        rfl

theorem range_stretches (x : List α) (r : List ℕ) : ∀ up p, Stretches x up p r →
    ∀ k c, p ≤ k → x[k]? = some c → ∃ i ∈ p :: (r ++ [x.length - 1]),
      ∃ j ∈ p :: (r ++ [x.length - 1]), ∃ a b, x[i]? = some a ∧ x[j]? = some b ∧ a ≤ c ∧ c ≤ b := by
  induction r with
  | nil =>
    intro up p hst k c hk hc
    obtain ⟨h1, hm, a, b, ha, hb, hab⟩ := hst
    have hkl := (List.getElem?_eq_some_iff.1 hc).1
    have e1 := hm p k a c (le_refl _) hk (by omega) ha hc
    have e2 := hm k (x.length - 1) c b hk (by omega) (le_refl _) hc hb
    cases up with
    | true => exact ⟨p, by simp, x.length - 1, by simp, a, b, ha, hb, by simpa using e1, by simpa using e2⟩
    | false => exact ⟨x.length - 1, by simp, p, by simp, b, a, hb, ha, by simpa using e2, by simpa using e1⟩
  | cons q r ih =>
    intro up p hst k c hk hc
    obtain ⟨h1, h2, hm, ⟨a, b, ha, hb, hab⟩, hst'⟩ := hst
    by_cases hkq : k ≤ q
    · have e1 := hm p k a c (le_refl _) hk hkq ha hc
      have e2 := hm k q c b hk hkq (le_refl _) hc hb
      cases up with
      | true => exact ⟨p, by simp, q, by simp, a, b, ha, hb, by simpa using e1, by simpa using e2⟩
      | false => exact ⟨q, by simp, p, by simp, b, a, hb, ha, by simpa using e2, by simpa using e1⟩
    · obtain ⟨i, hi, j, hj, a', b', h⟩ := ih _ _ hst' k c (by omega) hc
      exact ⟨i, List.mem_cons_of_mem _ hi, j, List.mem_cons_of_mem _ hj, a', b', h⟩

/-- C09: no range is lost.  The signal only falls before the first turning point `p`, the total
variation of the signal from `p` on is the total variation of the turning point values `m`, and every
sample from `p` on lies between two turning point values.  (No assumption on plateaus.) -/
theorem C09_findtp_total_variation (x : List α) (tp : List ℕ) (m : List α)
    (h : findtp x false none = .ok (some tp)) (hm : SamplesAt x tp m) :
    ∃ p rest, tp = p :: rest ∧ MonoOn false x 0 p ∧ tv (x.drop p) = tv m ∧
      ∀ k c, p ≤ k → x[k]? = some c → (∃ a ∈ m, a ≤ c) ∧ ∃ b ∈ m, c ≤ b := by
  have hmem : ∀ i ∈ tp, ∀ a, x[i]? = some a → a ∈ m := by
    intro i hi a ha
    unfold SamplesAt at hm
    clear h
    induction hm with
    | nil => simp at hi
    | cons h1 _ ih =>
      rcases List.mem_cons.1 hi with rfl | hi
      · rw [h1] at ha; rw [Option.some.inj ha]; simp
      · exact List.mem_cons_of_mem _ (ih hi)
  obtain ⟨i0, r, up, hst, hmon, hi0, hsc, ⟨rfl, rfl⟩ | ⟨rfl, rfl⟩⟩ :=
    findtpBase_cases x tp (findtp_none_eq x tp h)
  · refine ⟨i0, _, rfl, hmon, tv_stretches x r true i0 m hst hm, ?_⟩
    intro k c hk hc
    obtain ⟨i, hi, j, hj, a, b, ha, hb, hac, hcb⟩ := range_stretches x r true i0 hst k c hk hc
    exact ⟨⟨a, hmem i hi a ha, hac⟩, ⟨b, hmem j hj b hb, hcb⟩⟩
  · refine ⟨0, _, rfl, ?_, ?_, ?_⟩
    · intro i j a b hi hij hj ha hb
      obtain rfl : i = 0 := by omega
      obtain rfl : j = 0 := by omega
      rw [ha] at hb; rw [Option.some.inj hb]; simp
    · cases hm with
      | cons h1 h2 =>
        have h2' := h2
        cases h2 with
        | cons h2 h3 =>
          rw [tv_drop_mono true x 0 i0 hi0.le hmon _ _ h1 h2, tv_stretches x r false i0 _ hst h2']
          rfl
    · intro k c hk hc
      by_cases hki : i0 ≤ k
      · obtain ⟨i, hi, j, hj, a, b, ha, hb, hac, hcb⟩ :=
          range_stretches x r false i0 hst k c hki hc
        exact ⟨⟨a, hmem i (List.mem_cons_of_mem _ hi) a ha, hac⟩,
          ⟨b, hmem j (List.mem_cons_of_mem _ hj) b hb, hcb⟩⟩
      · have hk1 := (List.getElem?_eq_some_iff.1 hc).1
        have h0 : 0 < x.length := by omega
        have hi0l : i0 < x.length := by
          rcases r with _ | ⟨q, r⟩
          · have := hst.1; omega
          · have := hst.1; have := hst.2.1; omega
        have e1 := hmon 0 k x[0] c (le_refl _) hk (by omega) (List.getElem?_eq_getElem h0) hc
        have e2 := hmon k i0 c x[i0] hk (by omega) (le_refl _) hc (List.getElem?_eq_getElem hi0l)
        exact ⟨⟨x[0], hmem 0 (by simp) _ (List.getElem?_eq_getElem h0), by simpa using e1⟩,
          ⟨x[i0], hmem i0 (by simp) _ (List.getElem?_eq_getElem hi0l), by simpa using e2⟩⟩

/-- Non-vacuity, and a consistency check of the specification: `x[tp]` exists and the two total
variations agree. -/
example : findtp ([3, 1, 2, 5, 5, 4, 6, 0, 0] : List ℚ) false none = .ok (some [1, 4, 5, 6, 8]) ∧
    tv ([1, 5, 4, 6, 0] : List ℚ) = tv (([3, 1, 2, 5, 5, 4, 6, 0, 0] : List ℚ).drop 1) := by
  decide +kernel

/-! ### C10 -/

theorem zig_dropLast (x : List α) (l : List ℕ) : ∀ up, Zig x up l → (∀ i ∈ l, i < x.length) →
    Zig x up l.dropLast := by
  induction l with
  | nil => intro up _ _; simp [Zig]
  | cons p r ih =>
    intro up h hlt
    rcases r with _ | ⟨q, r⟩
    · simp [Zig]
    · have h2 := ih _ h.2.2.2 (fun i hi => hlt i (List.mem_cons_of_mem _ hi))
      rw [List.dropLast_cons_cons]
      rcases r with _ | ⟨q', r⟩
      · simp only [List.dropLast_singleton, Zig]; exact hlt p (by simp)
      · rw [List.dropLast_cons_cons] at h2 ⊢
        exact ⟨h.1, h.2.1, h.2.2.1, h2⟩

theorem zig_lt (x : List α) (l : List ℕ) : ∀ up, Zig x up l → ∀ i ∈ l, i < x.length := by
  induction l with
  | nil => intro up _ i hi; simp at hi
  | cons p r ih =>
    intro up h i hi
    rcases r with _ | ⟨q, r⟩
    · simp at hi; subst hi; exact h
    · rcases List.mem_cons.1 hi with rfl | hi
      · obtain ⟨a, b, ha, -⟩ := h.2.2.1
        exact (List.getElem?_eq_some_iff.1 ha).1
      · exact ih _ h.2.2.2 i hi

/-- C10: `kind='mw'` returns an odd number of turning points that alternate and start with a rise
(hence start and end with a minimum); `kind='Mw'` an odd number that start with a fall (start and end
with a maximum).  At most one turning point is dropped at each end.
(`up = true` for `mw`.)  Signals starting with a plateau followed by a drop are excluded, as in
C08. -/
theorem C10_findtp_waves (x : List α) (tp : List ℕ) (up : Bool)
    (h : findtp x false none = .ok (some tp)) (hp : NoPlateauDrop x) :
    ∃ m p q, findtp x false (some (if up then "mw" else "Mw")) = .ok (some m) ∧
      tp = p ++ m ++ q ∧ p.length ≤ 1 ∧ q.length ≤ 1 ∧ Zig x up m ∧ m.length % 2 = 1 := by
  have hz := (C08_findtp_alternates_partial x tp h hp).1
  have hb := findtp_none_eq x tp h
  have hlen : 3 ≤ tp.length := by
    unfold findtpBase at hb
    cases he : findextrema x with
    | error e => rw [he] at hb; simp at hb
    | ok l =>
      rw [he] at hb
      rcases l with _ | ⟨i0, _ | ⟨i1, r⟩⟩
      · simp at hb
      · simp at hb
      · simp only [Bool.false_eq_true, ↓reduceIte] at hb
        split at hb
        · simp only [Except.ok.injEq, Option.some.injEq] at hb
          rw [← hb]
          split <;> simp
        · simp at hb
  rcases tp with _ | ⟨i0, _ | ⟨i1, _ | ⟨i2, r⟩⟩⟩
  · simp at hlen
  · simp at hlen
  · simp at hlen
  · obtain ⟨h01, -, ⟨a, b, ha, hb', hab⟩, hz'⟩ := hz
    simp only [↓reduceIte] at hab
    have hmax : decide (a > b) = false := by simp [hab.le]
    have hlt := zig_lt x _ true (C08_findtp_alternates_partial x _ h hp).1
    cases up with
    | true =>
      simp only [↓reduceIte]
      have hfull := (C08_findtp_alternates_partial x _ h hp).1
      have hev : findtp x false (some "mw") = .ok (some
          (if (i0 :: i1 :: i2 :: r).length % 2 ≠ 1 then (i0 :: i1 :: i2 :: r).dropLast
            else i0 :: i1 :: i2 :: r)) := by
        unfold findtp
        simp only [Bool.false_eq_true, ↓reduceIte, Option.some.injEq, String.reduceEq, decide_false,
          hb, trimWave, ha, hb', hmax, Bool.false_xor]
      by_cases hodd : (i0 :: i1 :: i2 :: r).length % 2 = 1
      · exact ⟨_, [], [], hev, by rw [if_neg (by simpa using hodd)]; simp, by simp, by simp, by
          rw [if_neg (by simpa using hodd)]; exact hfull, by
          rw [if_neg (by simpa using hodd)]; exact hodd⟩
      · rw [if_pos hodd] at hev
        refine ⟨_, [], [(i0 :: i1 :: i2 :: r).getLast (by simp)], hev, ?_, by simp, by simp,
          zig_dropLast x _ true hfull hlt, ?_⟩
        · rw [List.nil_append, List.dropLast_concat_getLast]
        · rw [List.length_dropLast]; simp only [List.length_cons] at hodd ⊢; omega
    | false =>
      simp only [Bool.false_eq_true, ↓reduceIte]
      have hev : findtp x false (some "Mw") = .ok (some
          (if (i1 :: i2 :: r).length % 2 ≠ 1 then (i1 :: i2 :: r).dropLast
            else i1 :: i2 :: r)) := by
        unfold findtp
        simp only [Bool.false_eq_true, ↓reduceIte, Option.some.injEq, String.reduceEq, decide_false,
          hb, trimWave, ha, hb', hmax, Bool.false_xor]
      by_cases hodd : (i1 :: i2 :: r).length % 2 = 1
      · exact ⟨_, [i0], [], hev, by rw [if_neg (by simpa using hodd)]; simp, by simp, by simp, by
          rw [if_neg (by simpa using hodd)]; exact hz', by
          rw [if_neg (by simpa using hodd)]; exact hodd⟩
      · rw [if_pos hodd] at hev
        refine ⟨_, [i0], [(i1 :: i2 :: r).getLast (by simp)], hev, ?_, by simp, by simp,
          zig_dropLast x _ false hz' (fun i hi => hlt i (List.mem_cons_of_mem _ hi)), ?_⟩
        · rw [List.append_assoc, List.dropLast_concat_getLast]; simp
        · rw [List.length_dropLast]; simp only [List.length_cons] at hodd ⊢; omega

example : findtp ([0, 1, 1, 0, 2, 2] : List ℚ) false (some "mw") = .ok (some [0, 2, 3]) ∧
    findtp ([0, 1, 1, 0, 2, 2] : List ℚ) false (some "Mw") = .ok (some [2, 3, 5]) := by
  decide +kernel

/-- A negative threshold returns every sample. -/
theorem C10_findtp_negative_h (x : List α) (kind : Option String) :
    findtp x true kind = .ok (some (List.range x.length)) := by
  simp [findtp]

end Wafo.Turning
