import Verif.Mctp.Lemmas

/-!
# The loops of `mctp2rfc`
-/

set_option linter.unusedSectionVars false

namespace Wafo.Mctp

open Wafo

variable {N : ℕ} {f g : Mat}

/-- The entry computed in turn `(k, n + 1)` is still what the code computes from the other entries. -/
def Good (N : ℕ) (f g R : Mat) (k n : ℕ) : Prop :=
  cell N f g (put R (N - 1 - k) (k - (n + 1)) 0) k n = .ok (R (N - 1 - k) (k - (n + 1)))

theorem cell_congr {R R' : Mat} {k n : ℕ}
    (h : ∀ r c, N - 1 - k ≤ r → k - (n + 1) ≤ c → R r c = R' r c) : cell N f g R k n = cell N f g R' k n := by
  have e : ∀ r c : Fin (n + 1), R (N - 1 - k + r) (k - (n + 1) + c) = R' (N - 1 - k + r) (k - (n + 1) + c) :=
    fun r c => h _ _ (by omega) (by omega)
  unfold cell
  simp only [e]

theorem Good.congr {R R' : Mat} {k n : ℕ} (hg : Good N f g R k n)
    (h : ∀ r c, N - 1 - k ≤ r → k - (n + 1) ≤ c → R r c = R' r c) : Good N f g R' k n := by
  unfold Good at *
  rw [← h _ _ le_rfl le_rfl, ← hg]
  refine (cell_congr fun r c hr hc => ?_).symm
  unfold put
  split_ifs
  · rfl
  · exact h r c hr hc

theorem inner_spec {k s : ℕ} (hs : s + 1 ≤ k) {R0 R : Mat} (h : inner N f g k s R0 = .ok R)
    (h0 : ∀ c, 1 ≤ c → R0 (N - 1 - k) c = 0) :
    (∀ r c, ¬ (r = N - 1 - k ∧ k - s ≤ c ∧ c < k) → R r c = R0 r c) ∧ ∀ n, n < s → Good N f g R k n := by
  induction s generalizing R with
  | zero =>
    simp only [inner] at h
    have := Except.ok.inj h
    subst this
    exact ⟨fun _ _ _ => rfl, fun n hn => absurd hn (Nat.not_lt_zero n)⟩
  | succ s ih =>
    simp only [inner, bind, Except.bind] at h
    cases hR : inner N f g k s R0 with
    | error e => rw [hR] at h; cases h
    | ok R1 =>
      rw [hR] at h
      simp only at h
      cases hc : cell N f g R1 k s with
      | error e => rw [hc] at h; cases h
      | ok x =>
        rw [hc] at h
        simp only at h
        have hR' := Except.ok.inj h
        subst hR'
        obtain ⟨i1, i2⟩ := ih (by omega) hR
        refine ⟨fun r c hrc => ?_, fun n hn => ?_⟩
        · unfold put
          rw [if_neg (by rintro ⟨rfl, rfl⟩; exact hrc ⟨rfl, by omega, by omega⟩)]
          exact i1 r c (by rintro ⟨rfl, h1, h2⟩; exact hrc ⟨rfl, by omega, h2⟩)
        · rcases Nat.lt_succ_iff_lt_or_eq.1 hn with hlt | rfl
          · refine (i2 n hlt).congr fun r c hr hc' => ?_
            unfold put
            rw [if_neg (by rintro ⟨rfl, rfl⟩; omega)]
          · have hz : R1 (N - 1 - k) (k - (n + 1)) = 0 := by
              rw [i1 _ _ (by rintro ⟨_, h1, _⟩; omega)]
              exact h0 _ (by omega)
            have hput : put (put R1 (N - 1 - k) (k - (n + 1)) x) (N - 1 - k) (k - (n + 1)) 0 = R1 := by
              funext r c
              unfold put
              split_ifs with h1
              · rw [h1.1, h1.2, hz]
              · rfl
            unfold Good
            rw [hput, hc]
            simp [put]

/-- The state after the turns `k = 2, …, t + 1` of the outer loop. -/
structure Inv (N : ℕ) (f g : Mat) (t : ℕ) (R : Mat) : Prop where
  zero : ∀ r c, 1 ≤ r → r + (t + 2) ≤ N - 1 → 1 ≤ c → R r c = 0
  tri : ∀ r c, N - 1 ≤ r + c → R r c = 0
  good : ∀ k n, 2 ≤ k → k ≤ t + 1 → n + 1 < k → Good N f g R k n
  col : R (N - 2) 0 = fmax N f (N - 2)
  low : ∀ k, 2 ≤ k → k ≤ t + 1 → R (N - 1 - k) 0 = min (max 0 (fmin N f 0 - ∑ r ∈ Finset.Ico (N - k + 1) N, R r 0))
    (max 0 (fmax N f (N - 1 - k) - ∑ c ∈ Finset.Ico 1 k, R (N - 1 - k) c))

theorem outer_spec {t : ℕ} (ht : t + 3 ≤ N) {R0 R : Mat} (h : outer N f g t R0 = .ok R) (h0 : Inv N f g 0 R0) :
    Inv N f g t R := by
  induction t generalizing R with
  | zero =>
    simp only [outer] at h
    have := Except.ok.inj h
    subst this
    exact h0
  | succ t ih =>
    simp only [outer, bind, Except.bind] at h
    cases hR : outer N f g t R0 with
    | error e => rw [hR] at h; cases h
    | ok R1 =>
      rw [hR] at h
      simp only at h
      cases hc : inner N f g (t + 2) (t + 2 - 1) R1 with
      | error e => rw [hc] at h; cases h
      | ok R2 =>
        rw [hc] at h
        simp only at h
        have i := ih (by omega) hR
        obtain ⟨j1, j2⟩ := inner_spec (by omega) hc fun c hc1 => i.zero _ c (by omega) (by omega) hc1
        have hR' := Except.ok.inj h
        set y := min (max 0 (fmin N f 0 - ∑ r ∈ Finset.Ico (N - (t + 2) + 1) N, R2 r 0))
          (max 0 (fmax N f (N - 1 - (t + 2)) - ∑ c ∈ Finset.Ico 1 (t + 2), R2 (N - 1 - (t + 2)) c)) with hy
        have e1 : ∀ r c, r ≠ N - 1 - (t + 2) → R r c = R1 r c := fun r c hr => by
          rw [← hR']
          unfold put
          rw [if_neg (fun h => hr h.1)]
          exact j1 r c (fun h => hr h.1)
        have e2 : ∀ r c, 1 ≤ c → R r c = R2 r c := fun r c hr => by
          rw [← hR']
          unfold put
          rw [if_neg (fun h => by omega)]
        have e3 : ∀ r c, N - 1 - (t + 2) < r → R r c = R2 r c := fun r c hr => by
          rw [← hR']
          unfold put
          rw [if_neg (fun h => by omega)]
        have e4 : R (N - 1 - (t + 2)) 0 = y := by
          rw [← hR']
          simp [put]
        refine ⟨fun r c hr hrt hc1 => ?_, fun r c hrc => ?_, fun k n hk hkt hn => ?_, ?_, fun k hk hkt => ?_⟩
        · rw [e1 r c (by omega)]
          exact i.zero r c hr (by omega) hc1
        · rw [← hR']
          unfold put
          rw [if_neg (fun h => by omega), j1 r c (fun h => by omega)]
          exact i.tri r c hrc
        · rcases Nat.lt_or_ge k (t + 2) with hlt | hge
          · exact (i.good k n hk (by omega) hn).congr fun r c hr _ => (e1 r c (by omega)).symm
          · obtain rfl : k = t + 2 := by omega
            exact (j2 n (by omega)).congr fun r c _ hc' => (e2 r c (by omega)).symm
        · rw [e1 _ _ (by omega)]
          exact i.col
        · rcases Nat.lt_or_ge k (t + 2) with hlt | hge
          · rw [e1 _ _ (by omega), i.low k hk (by omega)]
            congr 3
            · exact Finset.sum_congr rfl fun r hr => (e1 r 0 (by have := Finset.mem_Ico.1 hr; omega)).symm
            · exact Finset.sum_congr rfl fun c _ => (e1 _ c (by omega)).symm
          · obtain rfl : k = t + 2 := by omega
            rw [e4, hy]
            congr 3
            · exact Finset.sum_congr rfl fun r hr => (e3 r 0 (by have := Finset.mem_Ico.1 hr; omega)).symm
            · exact Finset.sum_congr rfl fun c hc => (e2 _ c (by have := Finset.mem_Ico.1 hc; omega)).symm

theorem last_spec {t : ℕ} (ht : t + 1 ≤ N) (R0 : Mat) :
    (∀ r c, 1 ≤ r → last N f t R0 r c = R0 r c) ∧
    (∀ c, N - 1 ≤ c ∨ c + t + 1 < N → last N f t R0 0 c = R0 0 c) ∧
    ∀ k, 1 ≤ k → k ≤ t → last N f t R0 0 (N - 1 - k) =
      min (max 0 (fmin N f (N - 1 - k) - ∑ r ∈ Finset.Ico 1 (k + 1), last N f t R0 r (N - 1 - k)))
        (max 0 (fmax N f 0 - ∑ c ∈ Finset.Ico (N - k) N, last N f t R0 0 c)) := by
  induction t with
  | zero => exact ⟨fun _ _ _ => rfl, fun _ _ => rfl, fun k h1 h2 => by omega⟩
  | succ t ih =>
    obtain ⟨i1, i2, i3⟩ := ih (by omega)
    set R1 := last N f t R0 with hR1
    set y := min (max 0 (fmin N f (N - 1 - (t + 1)) - ∑ r ∈ Finset.Ico 1 (t + 1 + 1), R1 r (N - 1 - (t + 1))))
      (max 0 (fmax N f 0 - ∑ c ∈ Finset.Ico (N - (t + 1)) N, R1 0 c)) with hy
    have hl : last N f (t + 1) R0 = put R1 0 (N - 1 - (t + 1)) y := rfl
    rw [hl]
    have e1 : ∀ r c, 1 ≤ r → put R1 0 (N - 1 - (t + 1)) y r c = R1 r c := fun r c hr => by
      unfold put; rw [if_neg (fun h => by omega)]
    have e2 : ∀ r c, c ≠ N - 1 - (t + 1) → put R1 0 (N - 1 - (t + 1)) y r c = R1 r c := fun r c hr => by
      unfold put; rw [if_neg (fun h => hr h.2)]
    refine ⟨fun r c hr => (e1 r c hr).trans (i1 r c hr), fun c hc => ?_, fun k h1 h2 => ?_⟩
    · rw [e2 0 c (by omega)]
      exact i2 c (by omega)
    · have s1 : ∀ k, ∑ r ∈ Finset.Ico 1 (k + 1), put R1 0 (N - 1 - (t + 1)) y r (N - 1 - k) =
          ∑ r ∈ Finset.Ico 1 (k + 1), R1 r (N - 1 - k) := fun k =>
        Finset.sum_congr rfl fun r hr => e1 r _ (Finset.mem_Ico.1 hr).1
      have s2 : ∀ k, k ≤ t + 1 → ∑ c ∈ Finset.Ico (N - k) N, put R1 0 (N - 1 - (t + 1)) y 0 c =
          ∑ c ∈ Finset.Ico (N - k) N, R1 0 c := fun k hk =>
        Finset.sum_congr rfl fun c hc => e2 0 c (by have := Finset.mem_Ico.1 hc; omega)
      rw [s1, s2 k h2]
      rcases Nat.lt_or_ge k (t + 1) with hlt | hge
      · rw [e2 _ _ (by omega)]
        exact i3 k h1 (by omega)
      · obtain rfl : k = t + 1 := by omega
        rw [← hy]
        simp [put]

/-- Everything the loops leave behind. -/
theorem mctp2rfc_spec (hN : 3 ≤ N) {R : Mat} (h : mctp2rfc N f g = .ok R) :
    (∀ r c, N - 1 ≤ r + c → R r c = 0) ∧
    (∀ k n, 2 ≤ k → k + 2 ≤ N → n + 1 < k → Good N f g R k n) ∧
    R (N - 2) 0 = fmax N f (N - 2) ∧
    (∀ k, 2 ≤ k → k + 2 ≤ N → R (N - 1 - k) 0 = min (max 0 (fmin N f 0 - ∑ r ∈ Finset.Ico (N - k + 1) N, R r 0))
      (max 0 (fmax N f (N - 1 - k) - ∑ c ∈ Finset.Ico 1 k, R (N - 1 - k) c))) ∧
    ∀ k, 1 ≤ k → k < N → R 0 (N - 1 - k) =
      min (max 0 (fmin N f (N - 1 - k) - ∑ r ∈ Finset.Ico 1 (k + 1), R r (N - 1 - k)))
        (max 0 (fmax N f 0 - ∑ c ∈ Finset.Ico (N - k) N, R 0 c)) := by
  unfold mctp2rfc at h
  rw [if_neg (by omega)] at h
  simp only [bind, Except.bind] at h
  split at h
  · cases h
  · rename_i R1 hR1
    have hR := Except.ok.inj h
    have i := outer_spec (by omega) hR1 ⟨fun r c h1 h2 h3 => by
        unfold put
        rw [if_neg (fun h => by omega), if_neg (fun h => by omega)], fun r c h1 => by
        unfold put
        rw [if_neg (fun h => by omega), if_neg (fun h => by omega)], fun k n h1 h2 => by omega, by
        unfold put
        rw [if_neg (fun h => by omega), if_pos ⟨rfl, rfl⟩], fun k h1 h2 => by omega⟩
    obtain ⟨l1, l2, l3⟩ := last_spec (N := N) (f := f) (t := N - 1) (by omega) R1
    rw [hR] at l1 l2 l3
    refine ⟨fun r c hrc => ?_, fun k n h1 h2 h3 => ?_, ?_, fun k h1 h2 => ?_, fun k h1 h2 => l3 k h1 (by omega)⟩
    · rcases Nat.eq_zero_or_pos r with rfl | hr
      · rw [l2 c (Or.inl (by omega))]
        exact i.tri _ _ hrc
      · rw [l1 r c hr]
        exact i.tri _ _ hrc
    · exact (i.good k n h1 (by omega) h3).congr fun r c hr _ => (l1 r c (by omega)).symm
    · rw [l1 _ _ (by omega)]
      exact i.col
    · rw [l1 _ _ (by omega), i.low k h1 (by omega)]
      congr 3
      · exact Finset.sum_congr rfl fun r hr => (l1 r 0 (by have := Finset.mem_Ico.1 hr; omega)).symm
      · exact Finset.sum_congr rfl fun c _ => (l1 _ c (by omega)).symm

end Wafo.Mctp
