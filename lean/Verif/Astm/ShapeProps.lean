import Verif.Astm.Shape
import Verif.Astm.Props

/-!
Properties C102 and C103: order of the half cycles and the largest cycle of the ASTM rainflow counting.
-/

set_option linter.unusedSectionVars false

namespace Wafo.Astm

variable {α : Type*} [Field α] [LinearOrder α] [IsStrictOrderedRing α]

theorem rows3_shape (c : α) (l : List α) (hz : Zigzag (c :: l)) :
    ∃ st rows k s, rows3 (c :: l) = rows ++ close3 st ∧ loop3 (c :: l) [] [] 0 = (st, rows, k) ∧
      (s = 1 ∨ s = -1) ∧ Shape s (c :: l) st rows ∧ (2 ≤ (c :: l).length → 2 ≤ st.length) := by
  obtain ⟨s, hs, hf⟩ := zigzag_alt c l hz
  have h0 : Shape (-s) [c] [c] ([] : List (Row3 α)) := by
    refine ⟨trivial, trivial, by simp, ?_, by simp [halves], by simp [halves]⟩
    intro x hx
    rw [List.mem_singleton.1 hx]
    exact ⟨min_le_left _ _, le_max_left _ _⟩
  obtain ⟨st, rows, k, s', h1, h2, h3, h4⟩ := loop3_shape l c [] [] 0 s [c] hs hf h0
  have hl : loop3 (c :: l) [] [] 0 = (st, rows, k) := by
    rw [loop3]; exact h1
  refine ⟨st, rows, k, s', by rw [rows3, hl], hl, h2, h3, ?_⟩
  intro h
  apply h4
  simp only [List.length_cons, List.length_nil] at h ⊢
  omega

/-- **C102**  For every sequence of turning points the half cycles reported by `findrfc_astm` first grow and then
shrink strictly: equal neighbouring ranges are never left over as two half cycles of the shrinking part. -/
theorem C102_half_cycles (y : List α) (hz : Zigzag y) :
    ∃ G S, ((findrfc3 y).filter (fun r => decide (r.cnt = 1 / 2))).map Row3.ampl = G ++ S ∧
      G.Pairwise (· ≤ ·) ∧ S.Pairwise (· > ·) := by
  have hcut : ((findrfc3 y).filter (fun r => decide (r.cnt = 1 / 2))).map Row3.ampl = halves (rows3 y) := by
    obtain ⟨-, k, hk⟩ := C20_nothing_cut y
    rw [hk]
    change halves (rows3 y ++ _) = _
    rw [halves_append]
    have : halves (List.replicate k (⟨0, 0, 0⟩ : Row3 α)) = [] := by
      unfold halves
      rw [List.map_eq_nil_iff, List.filter_eq_nil_iff]
      intro r hr
      rw [(List.mem_replicate.1 hr).2]
      simp
    rw [this, List.append_nil]
  rw [hcut]
  rcases y with _ | ⟨c, l⟩
  · exact ⟨[], [], rfl, List.Pairwise.nil, List.Pairwise.nil⟩
  · obtain ⟨st, rows, k, s, h1, -, hs, hsh, -⟩ := rows3_shape c l hz
    refine ⟨halves rows, halves (close3 st), by rw [h1, halves_append], hsh.grow, ?_⟩
    rcases st with _ | ⟨a, _ | ⟨b, r⟩⟩
    · exact absurd rfl hsh.ne
    · simp [close3, halves]
    · exact (close3_halves r a b s hs hsh.alt hsh.dec).1

/-- **C103**  For every sequence of at least two turning points, one reported half cycle spans the whole signal: it
goes from the smallest to the largest value. -/
theorem C103_largest_cycle (y : List α) (hz : Zigzag y) (h2 : 2 ≤ y.length) :
    ∃ r ∈ findrfc3 y, r.cnt = 1 / 2 ∧ r.mean - r.ampl ∈ y ∧ r.mean + r.ampl ∈ y ∧
      ∀ x ∈ y, r.mean - r.ampl ≤ x ∧ x ≤ r.mean + r.ampl := by
  rcases y with _ | ⟨c, l⟩
  · simp at h2
  obtain ⟨st, rows, k, s, h1, -, hs, hsh, hlen⟩ := rows3_shape c l hz
  obtain ⟨hok, -, -, -⟩ := rows3_spec (c :: l)
  rcases st with _ | ⟨a, _ | ⟨b, r⟩⟩
  · exact absurd rfl hsh.ne
  · have := hlen h2; simp at this
  · obtain ⟨-, -, row, g1, g2, g3, g4⟩ := close3_halves r a b s hs hsh.alt hsh.dec
    have hmem : row ∈ rows3 (c :: l) := by rw [h1]; exact List.mem_append_right _ g1
    refine ⟨row, ?_, g2, (hok row hmem).2.2.1, (hok row hmem).2.2.2, ?_⟩
    · obtain ⟨-, k, hk⟩ := C20_nothing_cut (c :: l)
      rw [hk]; exact List.mem_append_left _ hmem
    · intro x hx
      rw [g3, g4]
      exact hsh.hull x hx

/-- The half cycles of 0, 1, -1, 3, -2, 2, 0 have amplitudes 1/2, 1, 2 | 5/2, 2, 1. -/
example : findrfc3 ([0, 1, -1, 3, -2, 2, 0] : List ℚ) =
    [⟨1/2, 1/2, 1/2⟩, ⟨1, 0, 1/2⟩, ⟨2, 1, 1/2⟩, ⟨5/2, 1/2, 1/2⟩, ⟨2, 0, 1/2⟩, ⟨1, 1, 1/2⟩] := by decide +kernel

/-- Equal ranges 3, 1, 3 at the end are one full cycle, not two halves. -/
example : findrfc3 ([0, 3, 1, 3] : List ℚ) = [⟨1, 2, 1⟩, ⟨3/2, 3/2, 1/2⟩] := by decide +kernel

end Wafo.Astm
