import Verif.Dct.Apply

/-!
Properties of `dctn`, `idctn`, `shiftdim` (dctpack.py) and of `idct` (polynomial.py).

`total shape g` is the sum of `g` over all indices of the shape; `Arr.Same` compares shapes and all entries.
-/

set_option linter.unusedSectionVars false

namespace Wafo.Dct

open Finset

/-- The axes are omitted or each satisfies `-ndim <= a < ndim`. -/
def AxesOk (x : Arr) (axes : Option (List ℤ)) : Prop := ∀ l, axes = some l → ValidAxes x.shape.length l

theorem atleast1d_of (x : Arr) (h : x.shape ≠ []) : atleast1d x = x := by simp [atleast1d, h]

theorem atleast1d_ne (x : Arr) : (atleast1d x).shape ≠ [] := by
  unfold atleast1d
  split_ifs with h
  · simp
  · exact h

theorem rawDctn_any (axes : Option (List ℤ)) (sh : List ℕ) (hsh : sh ≠ [])
    (h : ∀ l, axes = some l → ValidAxes sh.length l) (hpos : ∀ m ∈ sh, 0 < m) :
    ∃ ns, Keeps ns sh ∧ (∀ K' f', IsMatrix f' K' → ∀ y : Arr, y.shape = sh → ∃ z, rawDctn f' y none axes = .ok z ∧ z.shape = sh ∧
      ∀ b, b.length = sh.length → z.get b = sep K' ns sh y.get b) := by
  rcases axes with _ | l
  · refine ⟨lensOf sh ((List.range sh.length).map fun i : ℕ => (i : ℤ)), lensOf_keeps _ _, ?_⟩
    rintro K' f' hf' y rfl
    rw [rawDctn_default]
    refine rawDctn_axes hf' y _ hsh ?_ hpos
    intro a ha
    simp at ha
    obtain ⟨i, hi, rfl⟩ := ha
    omega
  · refine ⟨lensOf sh l, lensOf_keeps _ _, ?_⟩
    rintro K' f' hf' y rfl
    exact rawDctn_axes hf' y l hsh (h l rfl) hpos

theorem total_congr : ∀ (ms : List ℕ) (g g' : List ℕ → ℝ), (∀ js, js.length = ms.length → g js = g' js) → total ms g = total ms g'
  | [], g, g', h => h [] rfl
  | m :: ms, g, g', h => by
    simp only [total]
    exact sum_congr rfl fun i _ => total_congr ms _ _ fun js hj => h _ (by simp [hj])

/-- C140.  `idctn(dctn(x))` is `x`, for every number of dimensions, every shape without empty axes and every list of axes. -/
theorem C140_roundtrip (x : Arr) (axes : Option (List ℤ)) (h : AxesOk (atleast1d x) axes) (hpos : ∀ m ∈ x.shape, 0 < m) :
    ∃ y z, dctn x none axes = .ok y ∧ y.shape = (atleast1d x).shape ∧ idctn y none axes = .ok z ∧ z.Same (atleast1d x) := by
  have hne := atleast1d_ne x
  have hpos' : ∀ m ∈ (atleast1d x).shape, 0 < m := by
    unfold atleast1d
    split_ifs with h0
    · simp
    · exact hpos
  obtain ⟨ns, hk, hr⟩ := rawDctn_any axes _ hne h hpos'
  obtain ⟨y, hy, hys, hyg⟩ := hr _ _ dct1_matrix (atleast1d x) rfl
  obtain ⟨z, hz, hzs, hzg⟩ := hr _ _ idct1_matrix y hys
  refine ⟨y, z, hy, hys, ?_, hzs, ?_⟩
  · rw [idctn, atleast1d_of y (by rw [hys]; exact hne)]; exact hz
  · intro idx hi
    rw [hzs] at hi
    rw [hzg idx (inRange_length _ _ hi), sep_congr _ _ _ _ idx hk (inRange_length _ _ hi) hyg]
    exact sep_inverse _ (fun n i j hi hj => cosMat_orth n i j hi hj) _ _ _ _ hk hi

/-- C140.  `dctn(idctn(x))` is `x`. -/
theorem C140_roundtrip' (x : Arr) (axes : Option (List ℤ)) (h : AxesOk (atleast1d x) axes) (hpos : ∀ m ∈ x.shape, 0 < m) :
    ∃ y z, idctn x none axes = .ok y ∧ y.shape = (atleast1d x).shape ∧ dctn y none axes = .ok z ∧ z.Same (atleast1d x) := by
  have hne := atleast1d_ne x
  have hpos' : ∀ m ∈ (atleast1d x).shape, 0 < m := by
    unfold atleast1d
    split_ifs with h0
    · simp
    · exact hpos
  obtain ⟨ns, hk, hr⟩ := rawDctn_any axes _ hne h hpos'
  obtain ⟨y, hy, hys, hyg⟩ := hr _ _ idct1_matrix (atleast1d x) rfl
  obtain ⟨z, hz, hzs, hzg⟩ := hr _ _ dct1_matrix y hys
  refine ⟨y, z, hy, hys, ?_, hzs, ?_⟩
  · rw [dctn, atleast1d_of y (by rw [hys]; exact hne)]; exact hz
  · intro idx hi
    rw [hzs] at hi
    rw [hzg idx (inRange_length _ _ hi), sep_congr _ _ _ _ idx hk (inRange_length _ _ hi) hyg]
    exact sep_inverse _ (fun n i j hi hj => cosMat_orth' n i j hi hj) _ _ _ _ hk hi

/-- C140.  The transform keeps the sum of squares. -/
theorem C140_energy (x : Arr) (axes : Option (List ℤ)) (hne : x.shape ≠ []) (h : AxesOk x axes) (hpos : ∀ m ∈ x.shape, 0 < m) :
    ∃ y, dctn x none axes = .ok y ∧ total y.shape (fun i => y.get i ^ 2) = total x.shape (fun i => x.get i ^ 2) := by
  obtain ⟨ns, hk, hr⟩ := rawDctn_any axes _ hne h hpos
  obtain ⟨y, hy, hys, hyg⟩ := hr _ _ dct1_matrix x rfl
  refine ⟨y, by rw [dctn, atleast1d_of x hne]; exact hy, ?_⟩
  rw [hys, total_congr _ _ _ (fun js hj => by rw [hyg js hj])]
  exact sep_norm (fun n i j hi hj => cosMat_orth n i j hi hj) _ _ _ hk

example : AxesOk ⟨[2, 3], fun i => (i.getD 0 0 : ℝ) + i.getD 1 0⟩ (some [1]) := by
  intro l hl
  obtain rfl : l = [1] := by simpa using hl.symm
  intro a ha
  simp at ha
  subst ha
  simp

theorem loop_zero (f : Transform) (lens : ℕ → Option ℕ) : ∀ (l : List ℕ) (y : Arr), (∃ d ∈ l, lens d = some 0) →
    loop f lens l y = .error .valueError
  | [], _, h => by simp at h
  | d :: l, y, h => by
    simp only [loop]
    rcases ho : lens d with _ | n
    · refine loop_zero f lens l _ ?_
      obtain ⟨e, he, he'⟩ := h
      rcases List.mem_cons.1 he with rfl | he
      · rw [ho] at he'; cases he'
      · exact ⟨e, he, he'⟩
    · rcases Nat.eq_zero_or_pos n with rfl | hn
      · simp [alongLast]
      · simp only [alongLast, if_neg hn.ne']
        refine loop_zero f lens l _ ?_
        obtain ⟨e, he, he'⟩ := h
        rcases List.mem_cons.1 he with rfl | he
        · rw [ho] at he'; simp at he'; omega
        · exact ⟨e, he, he'⟩

/-- C140.  An empty axis among those transformed is an error. -/
theorem C140_empty_axis (x : Arr) (h : 0 ∈ x.shape) : dctn x none none = .error .valueError ∧ idctn x none none = .error .valueError := by
  have hne : x.shape ≠ [] := by rintro h0; rw [h0] at h; simp at h
  have key : ∀ f, rawDctn f x none none = .error .valueError := by
    intro f
    obtain ⟨i, hi, hi0⟩ := List.getElem_of_mem h
    have hg : getShapeAxes x.shape none none = .ok (x.shape, (List.range x.shape.length).map fun i : ℕ => (i : ℤ)) := by
      simp [getShapeAxes]
    have hl : axisLen x.shape ((List.range x.shape.length).map fun i : ℕ => (i : ℤ)) i = some 0 := by
      rw [axisLen_default _ _ hi, getD_lt _ _ hi, hi0]
    rcases x with ⟨sh, g⟩
    simp only at hne h hi hi0 hg hl ⊢
    rcases sh with _ | ⟨m, _ | ⟨m', ms⟩⟩
    · exact absurd rfl hne
    · simp only [rawDctn, hg]
      have : i = 0 := by simp at hi; exact hi
      subst this
      rw [loop_zero _ _ _ _ ⟨0, by simp, hl⟩]
    · simp only [rawDctn, hg]
      exact loop_zero _ _ _ _ ⟨i, by simpa using hi, hl⟩
  exact ⟨by rw [dctn, atleast1d_of x hne]; exact key _, by rw [idctn, atleast1d_of x hne]; exact key _⟩

example : (0 : ℕ) ∈ ([2, 0] : List ℕ) := by simp

/-- C141.  With one axis, each line along that axis is transformed on its own; the other indices do not matter. -/
theorem C141_one_axis (x : Arr) (k : ℕ) (hk : k < x.shape.length) (hpos : ∀ m ∈ x.shape, 0 < m) :
    ∃ y, dctn x none (some [(k : ℤ)]) = .ok y ∧ y.shape = x.shape ∧
      ∀ idx, InRange idx x.shape → y.get idx = dct1 x.shape[k] (fun j => x.get (idx.set k j)) (idx.getD k 0) := by
  have hne : x.shape ≠ [] := by rintro h; rw [h] at hk; simp at hk
  obtain ⟨y, hy, hys, hyg⟩ := rawDctn_axes dct1_matrix x [(k : ℤ)] hne (by intro a ha; simp at ha; subst ha; omega) hpos
  refine ⟨y, by rw [dctn, atleast1d_of x hne]; exact hy, hys, ?_⟩
  intro idx hi
  have hl := inRange_length _ _ hi
  rw [hyg idx hl]
  have e := sep_lens_insert (K := cosMat) x.shape [] k hk (by simp) x.get idx hl
  rw [List.nil_append] at e
  rw [e, getD_lt _ _ hk, dct1_matrix _ _ _ (hpos _ (List.getElem_mem hk))]
  refine sum_congr rfl fun j _ => ?_
  rw [sep_none _ _ _ _ (by simp [lensOf]) (by simp [lensOf]) (by simpa using hl)]

example : (1 : ℕ) < ([2, 3] : List ℕ).length := by simp

/-- C141.  Transforming one more axis is the same as transforming the result along that axis. -/
theorem C141_compose (x : Arr) (axes : List ℤ) (k : ℕ) (hk : k < x.shape.length) (hna : (k : ℤ) ∉ axes)
    (hv : ValidAxes x.shape.length axes) (hpos : ∀ m ∈ x.shape, 0 < m) :
    ∃ y z w, dctn x none (some axes) = .ok y ∧ dctn y none (some [(k : ℤ)]) = .ok z ∧
      dctn x none (some (axes ++ [(k : ℤ)])) = .ok w ∧ w.Same z := by
  have hne : x.shape ≠ [] := by rintro h; rw [h] at hk; simp at hk
  obtain ⟨y, hy, hys, hyg⟩ := rawDctn_axes dct1_matrix x axes hne hv hpos
  obtain ⟨w, hw, hws, hwg⟩ := rawDctn_axes dct1_matrix x (axes ++ [(k : ℤ)]) hne (by
    intro a ha
    rcases List.mem_append.1 ha with h | h
    · exact hv a h
    · simp at h; subst h; omega) hpos
  obtain ⟨z, hz, hzs, hzg⟩ := C141_one_axis y k (by rw [hys]; exact hk) (by rw [hys]; exact hpos)
  refine ⟨y, z, w, by rw [dctn, atleast1d_of x hne]; exact hy, hz, by rw [dctn, atleast1d_of x hne]; exact hw,
    by rw [hws, hzs, hys], ?_⟩
  intro idx hi
  rw [hws] at hi
  have hl := inRange_length _ _ hi
  have hi' : InRange idx y.shape := by rw [hys]; exact hi
  have hkk : y.shape[k]'(by rw [hys]; exact hk) = x.shape[k] := by simp [hys]
  rw [hwg idx hl, hzg idx hi', sep_lens_insert x.shape axes k hk hna x.get idx hl, getD_lt _ _ hk, hkk,
    dct1_matrix _ _ _ (hpos _ (List.getElem_mem hk))]
  refine sum_congr rfl fun j _ => ?_
  rw [hyg _ (by simpa using hl)]

/-- C141.  Without axes, all axes are transformed. -/
theorem C141_default (x : Arr) (h : x.shape ≠ []) :
    dctn x none none = dctn x none (some ((List.range x.shape.length).map fun i : ℕ => (i : ℤ))) := by
  rw [dctn, dctn, atleast1d_of x h]
  exact rawDctn_default _ _

/-- The array cut or padded with zeros to a new shape. -/
noncomputable def resized (x : Arr) (s : List ℕ) : Arr := by
  classical exact ⟨s, fun idx => if InRange idx x.shape then x.get idx else 0⟩

theorem sep_pad {K : ℕ → ℕ → ℕ → ℝ} : ∀ (s ms : List ℕ) (g g' : List ℕ → ℝ) (is : List ℕ), s.length = ms.length →
    is.length = s.length → (∀ js, InRange js ms → g' js = g js) → (∀ js, ¬ InRange js ms → g' js = 0) →
    sep K (s.map some) ms g is = sep K (s.map some) s g' is
  | [], [], g, g', [], _, _, h, _ => by simp only [List.map_nil, sep]; exact (h [] trivial).symm
  | n :: s, m :: ms, g, g', i :: is, h1, h2, h3, h4 => by
    simp only [List.map_cons, sep]
    refine sum_congr rfl fun j hj => ?_
    rw [if_pos (mem_range.1 hj)]
    congr 1
    split_ifs with hm
    · exact sep_pad s ms _ _ is (by simpa using h1) (by simpa using h2) (fun js hjs => h3 _ ⟨hm, hjs⟩)
        (fun js hjs => h4 _ (fun h => hjs h.2))
    · have : (fun js => g' (j :: js)) = fun _ => 0 := by
        funext js
        exact h4 _ (fun h => hm h.1)
      rw [this, sep_zero]

theorem axisLen_shape (s : List ℕ) (n : ℕ) (hn : s.length = n) :
    (List.range n).map (axisLen s ((List.range n).map fun i : ℕ => (i : ℤ))) = s.map some := by
  subst hn
  apply List.ext_getElem
  · simp
  · intro d h1 h2
    have hd : d < s.length := by simpa using h1
    rw [List.getElem_map, List.getElem_range, axisLen_default _ _ hd, getD_lt _ _ hd, List.getElem_map]

theorem newShape_some : ∀ (s ms : List ℕ), s.length = ms.length → newShape (s.map some) ms = s
  | [], [], _ => rfl
  | n :: s, m :: ms, h => by simp [newShape, newShape_some s ms (by simpa using h)]

theorem axisLen_pos (s : List ℕ) (n : ℕ) (hn : s.length = n) (hpos : ∀ m ∈ s, 0 < m) :
    ∀ d m, axisLen s ((List.range n).map fun i : ℕ => (i : ℤ)) d = some m → 0 < m := by
  subst hn
  intro d m h
  rcases Nat.lt_or_ge d s.length with hd | hd
  · rw [axisLen_default _ _ hd, getD_lt _ _ hd] at h
    simp only [Option.some.injEq] at h
    rw [← h]; exact hpos _ (List.getElem_mem hd)
  · rw [axisLen_default_none _ _ hd] at h; cases h

/-- C141.  `dctn(x, shape=s)` is the transform of the array cut or padded with zeros to that shape. -/
theorem C141_shape (x : Arr) (s : List ℕ) (hne : x.shape ≠ []) (hl : s.length = x.shape.length) (hpos : ∀ m ∈ s, 0 < m) :
    ∃ y z, dctn x (some s) none = .ok y ∧ y.shape = s ∧ dctn (resized x s) none none = .ok z ∧ y.Same z := by
  classical
  have hs : s ≠ [] := by rintro rfl; exact hne (List.length_eq_zero_iff.1 hl.symm)
  have hg : getShapeAxes x.shape (some s) none = .ok (s, (List.range x.shape.length).map fun i : ℕ => (i : ℤ)) := by
    simp [getShapeAxes, hl]
  obtain ⟨y, hy, hys, hyg⟩ := rawDctn_eq dct1_matrix x _ _ _ _ hne hg (axisLen_pos s _ hl hpos)
  have hg' : getShapeAxes (resized x s).shape none none = .ok (s, (List.range s.length).map fun i : ℕ => (i : ℤ)) := by
    simp [getShapeAxes, resized]
  have hsr : (resized x s).shape = s := rfl
  obtain ⟨z, hz, hzs, hzg⟩ := rawDctn_eq dct1_matrix (resized x s) none none _ _ hs hg' (axisLen_pos s _ rfl hpos)
  rw [axisLen_shape s _ hl] at hys hyg
  rw [newShape_some s _ hl] at hys
  simp only [hsr] at hzs hzg
  rw [axisLen_shape s _ rfl] at hzs hzg
  rw [newShape_some s _ rfl] at hzs
  refine ⟨y, z, by rw [dctn, atleast1d_of x hne]; exact hy, hys, by rw [dctn, atleast1d_of _ (by exact hs)]; exact hz,
    by rw [hys, hzs], ?_⟩
  intro idx hi
  rw [hys] at hi
  have hli := inRange_length _ _ hi
  rw [hyg idx (by rw [hli, hl]), hzg idx hli]
  refine sep_pad s x.shape _ _ idx hl hli (fun js h => ?_) (fun js h => ?_)
  · simp [resized, h]
  · simp [resized, h]

example : ([4, 1] : List ℕ).length = ([2, 3] : List ℕ).length ∧ ∀ m ∈ ([4, 1] : List ℕ), 0 < m := by simp

/-- C141.  A shape of the wrong length is rejected. -/
theorem C141_shape_length (x : Arr) (s : List ℕ) (hne : x.shape ≠ []) (hl : s.length ≠ x.shape.length) :
    dctn x (some s) none = .error .valueError := by
  rw [dctn, atleast1d_of x hne]
  have hg : getShapeAxes x.shape (some s) none = .error .valueError := by
    simp only [getShapeAxes, Option.getD_none, List.length_map, List.length_range]
    exact if_pos (Ne.symm hl)
  simp only [rawDctn, hg]

/-- C141, refuted for negative axes: they pass the checks, but the array comes back untransformed. -/
theorem C141_negative_refuted (x : Arr) (axes : List ℤ) (hne : x.shape ≠ []) (hv : ValidAxes x.shape.length axes)
    (hneg : ∀ a ∈ axes, a < 0) (hpos : ∀ m ∈ x.shape, 0 < m) :
    ∃ y, dctn x none (some axes) = .ok y ∧ y.Same x := by
  obtain ⟨y, hy, hys, hyg⟩ := rawDctn_axes dct1_matrix x axes hne hv hpos
  refine ⟨y, by rw [dctn, atleast1d_of x hne]; exact hy, hys, ?_⟩
  intro idx hi
  rw [hys] at hi
  have hl := inRange_length _ _ hi
  rw [hyg idx hl]
  refine sep_none _ _ _ _ ?_ (by simp [lensOf]) hl
  intro o ho
  obtain ⟨i, hi', rfl⟩ := List.getElem_of_mem ho
  simp only [lensOf, List.getElem_mapIdx]
  rw [if_neg]
  intro hm
  have := hneg _ hm
  omega

example : ValidAxes ([2, 3] : List ℕ).length [-1] ∧ ∀ a ∈ ([-1] : List ℤ), a < 0 := by
  refine ⟨fun a ha => ?_, fun a ha => ?_⟩ <;> simp at ha <;> subst ha <;> norm_num

/-- C141, refuted for negative axes, in numbers: the transform of `[1, 1]` along its only axis is `[sqrt 2, 0]` with `axes=[0]`,
with `axes=[-1]` it is `[1, 1]`. -/
theorem C141_negative_witness : ∃ x y z : Arr, x.shape = [2] ∧ dctn x none (some [0]) = .ok y ∧ dctn x none (some [-1]) = .ok z ∧
    y.get [1] = 0 ∧ z.get [1] = 1 := by
  have hp : ∀ m ∈ ([2] : List ℕ), 0 < m := by simp
  obtain ⟨y, hy, -, hyg⟩ := C141_one_axis ⟨[2], fun _ => 1⟩ 0 (by simp) hp
  obtain ⟨z, hz, hzs⟩ := C141_negative_refuted ⟨[2], fun _ => 1⟩ [-1] (by simp) (by intro a ha; simp at ha; subst ha; norm_num)
    (by simp) hp
  refine ⟨⟨[2], fun _ => 1⟩, y, z, rfl, hy, hz, ?_, ?_⟩
  · rw [hyg [1] (by simp [InRange])]
    simp only [dct1, List.getElem_cons_zero, List.getD_cons_zero, sum_range_succ, sum_range_zero]
    have : Real.cos (Real.pi * (1 : ℕ) * (2 * (1 : ℕ) + 1) / (2 * (2 : ℕ))) = - Real.cos (Real.pi * (1 : ℕ) * (2 * (0 : ℕ) + 1) / (2 * (2 : ℕ))) := by
      rw [← Real.cos_pi_sub]
      congr 1
      push_cast
      ring
    rw [this]
    ring
  · exact hzs.2 [1] (by rw [hzs.1]; simp [InRange])

/-- C141.  An axis outside `-ndim <= a < ndim` is an IndexError. -/
theorem C141_bad_axis (x : Arr) (axes : List ℤ) (hne : x.shape ≠ []) (h : ¬ ValidAxes x.shape.length axes) :
    dctn x none (some axes) = .error .indexError := by
  have key : ∀ (sh : List ℕ) (l : List ℤ), ¬ ValidAxes sh.length l → takeShape sh l = .error .indexError := by
    intro sh l
    induction l with
    | nil => intro h; exact absurd (by intro a ha; simp at ha) h
    | cons a l ih =>
      intro h
      by_cases ha : -(sh.length : ℤ) ≤ a ∧ a < sh.length
      · have hl := ih (by
          intro hv; apply h; intro b hb
          rcases List.mem_cons.1 hb with rfl | hb
          · exact ha
          · exact hv b hb)
        simp only [takeShape] at hl ⊢
        rw [List.mapM_cons, hl]
        have h0 : 0 ≤ (if a < 0 then a + (sh.length : ℤ) else a) := by split_ifs <;> omega
        have h1 : (if a < 0 then a + (sh.length : ℤ) else a).toNat < sh.length := by split_ifs <;> omega
        simp only [if_pos h0, List.getElem?_eq_getElem h1]
        rfl
      · simp only [takeShape]
        rw [List.mapM_cons]
        by_cases h0 : 0 ≤ (if a < 0 then a + (sh.length : ℤ) else a)
        · have h1 : sh.length ≤ (if a < 0 then a + (sh.length : ℤ) else a).toNat := by
            split_ifs at h0 ⊢ <;> omega
          simp only [if_pos h0, List.getElem?_eq_none h1]
          rfl
        · simp only [if_neg h0]
          rfl
  rw [dctn, atleast1d_of x hne]
  simp only [rawDctn, getShapeAxes, key _ _ h]

example : ¬ ValidAxes ([2, 3] : List ℕ).length [2] := fun h => by have := (h 2 (by simp)).2; norm_num at this

/-! ### shiftdim -/

/-- C142.  `shiftdim(x, n)` for `n >= 0`: axis `i` of the result is axis `i+n` (modulo ndim) of `x`, shape and entries alike. -/
theorem C142_rotate (x : Arr) (n : ℕ) (hne : x.shape ≠ []) :
    (shiftdim x (some n)).shape.length = x.shape.length ∧
    (∀ i, i < x.shape.length → (shiftdim x (some n)).shape.getD i 0 = x.shape.getD ((i + n) % x.shape.length) 0) ∧
    ∀ idx idx' : List ℕ, idx.length = x.shape.length → idx'.length = x.shape.length →
      (∀ i, i < x.shape.length → idx'.getD i 0 = idx.getD ((i + n) % x.shape.length) 0) →
      (shiftdim x (some n)).get idx' = x.get idx := by
  have hlen : 0 < x.shape.length := List.length_pos_iff.2 hne
  simp only [shiftdim, if_pos (Int.natCast_nonneg n), Int.toNat_natCast]
  refine ⟨by simp, ?_, ?_⟩
  · intro i hi
    rw [getD_lt _ _ (by simpa using hi), List.getElem_rotate, getD_lt _ _ (Nat.mod_lt _ hlen)]
  · intro idx idx' h1 h2 h
    have e : idx' = idx.rotate n := by
      apply List.ext_getElem
      · simp [h1, h2]
      · intro i hi hi'
        have := h i (by rw [← h2]; exact hi)
        rw [getD_lt _ _ hi, getD_lt _ _ (by rw [h1]; exact Nat.mod_lt _ hlen)] at this
        rw [this, List.getElem_rotate]
        simp [h1]
    rw [e]
    show x.get _ = x.get _
    refine congrArg x.get ?_
    rw [List.rotate_rotate]
    have hm : n % x.shape.length ≤ x.shape.length := (Nat.mod_lt _ hlen).le
    have : n + (x.shape.length - n % x.shape.length) = x.shape.length * (n / x.shape.length + 1) := by
      have := Nat.div_add_mod n x.shape.length
      rw [mul_add, mul_one]
      omega
    rw [this, ← h1]
    exact List.rotate_length_mul idx _

theorem rot_mod (d : ℕ) : ∀ (l : List ℕ) (a b : ℕ), l.length = d → a % d = b % d → l.rotate a = l.rotate b := by
  intro l a b h1 h2
  rw [← List.rotate_mod l a, ← List.rotate_mod l b, h1, h2]

/-- C142.  Two shifts add up. -/
theorem C142_add (x : Arr) (a b : ℕ) (hne : x.shape ≠ []) :
    (shiftdim (shiftdim x (some a)) (some b)).Same (shiftdim x (some (a + b : ℕ))) := by
  have hlen : 0 < x.shape.length := List.length_pos_iff.2 hne
  simp only [Arr.Same, shiftdim, if_pos (Int.natCast_nonneg _), Int.toNat_natCast]
  refine ⟨by rw [List.rotate_rotate], ?_⟩
  intro idx hi
  have hl : idx.length = x.shape.length := by have := inRange_length _ _ hi; simpa using this
  show x.get _ = x.get _
  refine congrArg x.get ?_
  rw [List.rotate_rotate, List.length_rotate]
  refine rot_mod _ _ _ _ hl ?_
  have ha := Nat.mod_lt a hlen
  have hb := Nat.mod_lt b hlen
  have hc := Nat.mod_lt (a + b) hlen
  refine Nat.ModEq.add_right_cancel' (a + b) (show _ ≡ _ [MOD x.shape.length] from ?_)
  have e1 : x.shape.length - b % x.shape.length + (x.shape.length - a % x.shape.length) + (a + b)
      = x.shape.length * (a / x.shape.length + b / x.shape.length + 2) := by
    have := Nat.div_add_mod a x.shape.length
    have := Nat.div_add_mod b x.shape.length
    rw [mul_add, mul_add]
    omega
  have e2 : x.shape.length - (a + b) % x.shape.length + (a + b)
      = x.shape.length * ((a + b) / x.shape.length + 1) := by
    have := Nat.div_add_mod (a + b) x.shape.length
    rw [mul_add]
    omega
  rw [e1, e2]
  exact (Nat.modEq_zero_iff_dvd.2 ⟨_, rfl⟩).trans (Nat.modEq_zero_iff_dvd.2 ⟨_, rfl⟩).symm

/-- C142.  `ndim` (or no) shifts are the identity, so shifting `n` and then `ndim - n` places gives back the array. -/
theorem C142_period (x : Arr) : (shiftdim x (some x.shape.length)).Same x := by
  simp only [Arr.Same, shiftdim, if_pos (Int.natCast_nonneg _), Int.toNat_natCast, List.rotate_length]
  refine ⟨trivial, fun idx hi => ?_⟩
  have hl : idx.length = x.shape.length := inRange_length _ _ hi
  rw [Nat.mod_self, Nat.sub_zero, ← hl, List.rotate_length]

theorem numLeadingOnes_spec (l : List ℕ) :
    (∃ m t, m ≠ 1 ∧ l = List.replicate (numLeadingOnes l) 1 ++ m :: t) ∨ ((∀ m ∈ l, m = 1) ∧ numLeadingOnes l = 0) := by
  rcases h : l.findIdx? (fun v => decide (v ≠ 1)) with _ | i
  · right
    refine ⟨fun m hm => ?_, by rw [numLeadingOnes, h]⟩
    rw [List.findIdx?_eq_none_iff] at h
    simpa using h m hm
  · left
    have hn : numLeadingOnes l = i := by rw [numLeadingOnes, h]
    obtain ⟨hi, h1, h2⟩ := List.findIdx?_eq_some_iff_getElem.1 h
    refine ⟨l[i], l.drop (i + 1), by simpa using h1, ?_⟩
    rw [hn, List.cons_getElem_drop_succ]
    have : l.take i = List.replicate i 1 := by
      refine List.eq_replicate_iff.2 ⟨by simp; omega, ?_⟩
      intro b hb
      obtain ⟨j, hj, rfl⟩ := List.getElem_of_mem hb
      simp only [List.getElem_take]
      have := h2 j (by simp at hj; omega)
      simpa using this
    rw [← this, List.take_append_drop]

theorem inRange_ones : ∀ (k : ℕ) (idx s : List ℕ), InRange idx (List.replicate k 1 ++ s) →
    ∃ t, idx = List.replicate k 0 ++ t ∧ InRange t s
  | 0, idx, s, h => ⟨idx, by simp, by simpa using h⟩
  | k + 1, [], s, h => by simp [List.replicate_succ, InRange] at h
  | k + 1, i :: is, s, h => by
    simp only [List.replicate_succ, List.cons_append, InRange] at h
    obtain ⟨t, ht, hs⟩ := inRange_ones k is s h.2
    have : i = 0 := by omega
    subst this
    exact ⟨t, by simp [List.replicate_succ, ht], hs⟩

/-- C142.  If some axis does not have length one, `shiftdim(x)` removes exactly the leading axes of length one, and putting the
same number back with a negative shift gives `x` again. -/
theorem C142_none_partial (x : Arr) (h : ∃ m ∈ x.shape, m ≠ 1) :
    ∃ k s m, x.shape = List.replicate k 1 ++ (shiftdim x none).shape ∧ (shiftdim x none).shape = m :: s ∧ m ≠ 1 ∧
      (∀ idx, (shiftdim x none).get idx = x.get (List.replicate k 0 ++ idx)) ∧
      (shiftdim (shiftdim x none) (if k = 0 then some 0 else some (-(k : ℤ)))).Same x := by
  rcases numLeadingOnes_spec x.shape with ⟨m, t, hm, e⟩ | ⟨h1, -⟩
  swap
  · obtain ⟨m, hm, hm'⟩ := h
    exact absurd (h1 m hm) hm'
  set k := numLeadingOnes x.shape with hk
  have hs : (shiftdim x none).shape = m :: t := by
    simp only [shiftdim, noLeadingOnes, ← hk]
    conv_lhs => rw [e]
    rw [List.drop_left' (by simp)]
  refine ⟨k, t, m, by rw [hs]; exact e, hs, hm, fun idx => rfl, ?_⟩
  by_cases h0 : k = 0
  · rw [if_pos h0]
    have hn0 : (0 : ℤ) ≤ 0 := le_rfl
    refine ⟨?_, ?_⟩
    · simp only [shiftdim, if_pos hn0, noLeadingOnes, ← hk, h0]
      simp
    · intro idx hi
      have e0 : x.shape = m :: t := by rw [e, h0]; simp
      have hl : idx.length = x.shape.length := by
        have := inRange_length _ _ hi
        rw [this]
        simp only [shiftdim, if_pos hn0, noLeadingOnes, ← hk, h0]
        simp
      simp only [shiftdim, if_pos hn0, noLeadingOnes, ← hk, h0]
      show x.get _ = x.get _
      refine congrArg x.get ?_
      simp [← hl]
  · rw [if_neg h0]
    have hneg : ¬ (0 : ℤ) ≤ -(k : ℤ) := by omega
    have hab : (-(k : ℤ)).natAbs = k := by omega
    have eq : ∀ y : Arr, shiftdim y (some (-(k : ℤ))) = ⟨List.replicate k 1 ++ y.shape, fun idx => y.get (idx.drop k)⟩ := by
      intro y
      rw [shiftdim, if_neg hneg, hab]
    rw [eq]
    refine ⟨by simp only [hs]; exact e.symm, ?_⟩
    intro idx hi
    simp only [hs] at hi
    obtain ⟨u, hu, -⟩ := inRange_ones k idx _ hi
    show x.get (List.replicate k 0 ++ idx.drop k) = x.get idx
    rw [hu]
    simp

example : ∃ m ∈ ([1, 1, 3, 1, 2] : List ℕ), m ≠ 1 := by simp

/-- C142, refuted: when every axis has length one nothing is removed. -/
theorem C142_none_refuted (x : Arr) (h : ∀ m ∈ x.shape, m = 1) : (shiftdim x none).Same x := by
  rcases numLeadingOnes_spec x.shape with ⟨m, t, hm, e⟩ | ⟨-, h0⟩
  · exact absurd (h m (by rw [e]; simp)) hm
  · simp only [Arr.Same, shiftdim, noLeadingOnes, h0]
    simp

example : ∀ m ∈ ([1, 1] : List ℕ), m = 1 := by simp

/-- C142.  A negative shift pads with singletons, and `shiftdim(x)` removes them again when the first axis of `x` is not one. -/
theorem C142_negative (x : Arr) (n : ℕ) (m : ℕ) (s : List ℕ) (hs : x.shape = m :: s) (hm : m ≠ 1) (hn : 0 < n) :
    (shiftdim x (some (-(n : ℤ)))).shape = List.replicate n 1 ++ x.shape ∧
    (∀ idx, (shiftdim x (some (-(n : ℤ)))).get (List.replicate n 0 ++ idx) = x.get idx) ∧
    (shiftdim (shiftdim x (some (-(n : ℤ)))) none).Same x := by
  have hneg : ¬ (0 : ℤ) ≤ -(n : ℤ) := by omega
  have hab : (-(n : ℤ)).natAbs = n := by omega
  have e : shiftdim x (some (-(n : ℤ))) = ⟨List.replicate n 1 ++ x.shape, fun idx => x.get (idx.drop n)⟩ := by
    rw [shiftdim, if_neg hneg, hab]
  have hl : numLeadingOnes (List.replicate n 1 ++ m :: s) = n := by
    have : (List.replicate n 1 ++ m :: s).findIdx? (fun v => decide (v ≠ 1)) = some n := by
      rw [List.findIdx?_eq_some_iff_getElem]
      refine ⟨by simp, by simp [hm], ?_⟩
      intro j hj
      rw [List.getElem_append_left (by simpa using hj)]
      simp
    rw [numLeadingOnes, this]
  refine ⟨by rw [e], fun idx => by rw [e]; simp, ?_⟩
  rw [e]
  simp only [Arr.Same, shiftdim, noLeadingOnes, hs, hl]
  simp

example : ((3 : ℕ) :: [1, 2]) = [3, 1, 2] ∧ (3 : ℕ) ≠ 1 := by simp

/-! ### idct of polynomial.py -/

/-- Entry of the raw transform matrix. -/
noncomputable def c (n k j : ℕ) : ℝ := Real.cos (Real.pi * k * (2 * j + 1) / (2 * n))

theorem raw_orth (n i j : ℕ) (hi : i < n) (hj : j < n) :
    1 + 2 * ∑ k ∈ Ico 1 n, c n k i * c n k j = if i = j then (n : ℝ) else 0 := by
  have hn : 0 < n := by omega
  have hn' : (n : ℝ) ≠ 0 := by exact_mod_cast hn.ne'
  have h := Wafo.Cheb.cos_orth n i j hi hj
  rw [range_eq_Ico, sum_eq_sum_Ico_succ_bot hn] at h
  rw [← h]
  have e : ∀ k ∈ Ico (0 + 1) n, Real.cos ((k : ℝ) * (Real.pi * ((i : ℝ) + 1 / 2) / n)) * Real.cos ((k : ℝ) * (Real.pi * ((j : ℝ) + 1 / 2) / n))
      = c n k i * c n k j := by
    intro k _
    unfold c
    rw [show (k : ℝ) * (Real.pi * ((i : ℝ) + 1 / 2) / n) = Real.pi * k * (2 * i + 1) / (2 * n) by field_simp,
      show (k : ℝ) * (Real.pi * ((j : ℝ) + 1 / 2) / n) = Real.pi * k * (2 * j + 1) / (2 * n) by field_simp]
  rw [sum_congr rfl e]
  simp
  ring

theorem idctRaw_c (n : ℕ) (hn : 0 < n) (v : ℕ → ℝ) (k : ℕ) :
    idctRaw n v k = v 0 + 2 * ∑ j ∈ Ico 1 n, v j * c n j k := by
  have hn' : (n : ℝ) ≠ 0 := by exact_mod_cast hn.ne'
  unfold idctRaw c
  congr 2
  refine sum_congr rfl fun j _ => ?_
  rw [show Real.pi * ((k : ℝ) + 1 / 2) * j / n = Real.pi * j * (2 * k + 1) / (2 * n) by field_simp]

theorem getD_map_range (n : ℕ) (f : ℕ → ℝ) (j : ℕ) (hj : j < n) : ((List.range n).map f).getD j 0 = f j := by
  simp [List.getD, hj]

theorem idct_dct_raw (n : ℕ) (x : ℕ → ℝ) (k : ℕ) (hk : k < n) :
    idctRaw n (fun j => dctRaw n x j) k = 2 * n * x k := by
  have hn : 0 < n := by omega
  rw [idctRaw_c n hn]
  have h0 : dctRaw n x 0 = 2 * ∑ i ∈ range n, x i := by simp [dctRaw]
  have h1 : ∀ j, dctRaw n x j = 2 * ∑ i ∈ range n, x i * c n j i := fun j => rfl
  simp only [h0, h1]
  have : 2 * ∑ i ∈ range n, x i + 2 * ∑ j ∈ Ico 1 n, 2 * (∑ i ∈ range n, x i * c n j i) * c n j k
      = 2 * ∑ i ∈ range n, x i * (1 + 2 * ∑ j ∈ Ico 1 n, c n j i * c n j k) := by
    have e : ∑ j ∈ Ico 1 n, 2 * (∑ i ∈ range n, x i * c n j i) * c n j k
        = ∑ i ∈ range n, x i * (2 * ∑ j ∈ Ico 1 n, c n j i * c n j k) := by
      simp only [mul_sum, sum_mul]
      rw [sum_comm]
      refine sum_congr rfl fun i _ => sum_congr rfl fun j _ => by ring
    rw [e, ← mul_add, ← sum_add_distrib]
    congr 1
    refine sum_congr rfl fun i _ => by ring
  rw [this, sum_congr rfl (fun i hi => by rw [raw_orth n i k (mem_range.1 hi) hk])]
  simp [hk]
  ring

/-- C143.  `idct(dct(x))` is `x` for every non-empty vector. -/
theorem C143_roundtrip (x : List ℝ) (hx : x ≠ []) : ∃ y, polyDct x = .ok y ∧ y.length = x.length ∧ polyIdct y none = .ok x := by
  have hl : x.length ≠ 0 := by simpa using hx
  have hn' : (x.length : ℝ) ≠ 0 := by exact_mod_cast hl
  refine ⟨_, by rw [polyDct, if_neg hl], by simp, ?_⟩
  simp only [polyIdct, List.length_map, List.length_range, Option.getD_none]
  rw [if_neg hl]
  congr 1
  apply List.ext_getElem
  · simp
  · intro k h1 h2
    rw [List.getElem_map, List.getElem_range]
    have e : idctRaw x.length (fun j => ((List.range x.length).map fun k => dctRaw x.length (fun j => x.getD j 0) k).getD j 0) k
        = idctRaw x.length (fun j => dctRaw x.length (fun j => x.getD j 0) j) k := by
      rw [idctRaw_c _ (by omega), idctRaw_c _ (by omega), getD_map_range _ _ _ (by omega)]
      congr 2
      refine sum_congr rfl fun j hj => ?_
      rw [getD_map_range _ _ _ (mem_Ico.1 hj).2]
    rw [e, idct_dct_raw _ _ _ h2]
    have : x.getD k 0 = x[k] := by simp [List.getD, h2]
    rw [this]
    field_simp

example : ([1, 2, 3] : List ℝ) ≠ [] := by simp

/-- C143.  An empty vector is rejected. -/
theorem C143_empty : polyDct [] = .error .valueError ∧ polyIdct [] none = .error .valueError := by
  simp [polyDct, polyIdct]

/-- C143, refuted for `n != len(x)`: the documented factor is `1/N` with `N` the length of the transform, the code divides by
the length of `x`, so padding with zeros by hand and with `n` give different results. -/
theorem C143_length_refuted (a : ℝ) (ha : a ≠ 0) : polyIdct [a] (some 2) = .ok [a / 2, a / 2] ∧
    polyIdct [a, 0] none = .ok [a / 4, a / 4] ∧ a / 2 ≠ a / 4 := by
  refine ⟨?_, ?_, ?_⟩
  · simp [polyIdct, idctRaw, List.range_succ]; ring
  · simp [polyIdct, idctRaw, List.range_succ]; ring
  · intro h; apply ha; linarith

end Wafo.Dct
