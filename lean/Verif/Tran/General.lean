import Verif.Tran.Props
import Verif.LevelX.Model

/-!
`tranproc` for arbitrary increasing abscissae (C50), as used by `TrData` and `qlevels`.
-/

set_option linter.unusedSectionVars false

namespace Wafo.Tran

section
variable {α : Type*} [Field α] [LinearOrder α] [IsStrictOrderedRing α] [FloorRing α]

/-- `w` lies on the polygon through the equidistant points `(0, F[0])`, `(1, F[1])`, … at `u`. -/
def OnPolygon (F : List α) (u w : α) : Prop :=
  ∃ (k : ℕ) (p q : α), F[k]? = some p ∧ F[k + 1]? = some q ∧ (k : α) ≤ u ∧ u ≤ k + 1 ∧ w = p + (q - p) * (u - k)

theorem pyGet_nat (l : List α) (j : ℕ) (v : α) (h : l[j]? = some v) : pyGet l (j : ℤ) = .ok v := by
  unfold pyGet
  dsimp only
  have h0 : ¬ (j : ℤ) < 0 := by omega
  have h0' : (0 : ℤ) ≤ j := by omega
  rw [if_neg h0, if_pos h0', Int.toNat_natCast, h]

theorem fromEnd_last (l : List α) (b : α) (h : l.getLast? = some b) : fromEnd l 1 = .ok b := by
  unfold fromEnd
  have : 1 ≤ l.length := by
    cases l with
    | nil => simp at h
    | cons a l => simp
  rw [List.getLast?_eq_getElem?] at h
  rw [if_pos this, h]

/-- The value at one point when the grid has as many points as the argument `f`. -/
theorem valueAt_polygon (g : List (α × α)) (N : ℕ) (hN : 1 ≤ N) (hg : g.length = N + 1) (a b : α) (hab : a < b)
    (ha : (g.map Prod.fst)[0]? = some a) (hb : (g.map Prod.fst).getLast? = some b) (v : α) (h1 : a ≤ v) (h2 : v ≤ b) :
    ∃ w, valueAt (N + 1) g v = .ok w ∧ OnPolygon (g.map Prod.snd) (N * (v - a) / (b - a)) w := by
  unfold valueAt
  rw [fromEnd_last _ b hb, show (0 : ℤ) = ((0 : ℕ) : ℤ) from rfl, pyGet_nat _ 0 a ha]
  dsimp only
  have hxu : (((N + 1 : ℕ) : α) - 1) * (v - a) / (b - a) = N * (v - a) / (b - a) := by push_cast; rw [add_sub_cancel_right]
  rw [hxu]
  set xu := (N : α) * (v - a) / (b - a) with hxud
  have hd : 0 < b - a := by linarith
  have hxu0 : 0 ≤ xu := div_nonneg (mul_nonneg (by positivity) (by linarith)) hd.le
  have hxuN : xu ≤ N := by
    rw [hxud, div_le_iff₀ hd]
    exact mul_le_mul_of_nonneg_left (by linarith) (by positivity)
  have hfl0 : 0 ≤ ⌊xu⌋ := Int.floor_nonneg.2 hxu0
  have hflN : ⌊xu⌋ ≤ (N : ℤ) := by
    have : ((⌊xu⌋ : ℤ) : α) ≤ ((N : ℤ) : α) := (Int.floor_le xu).trans (by exact_mod_cast hxuN)
    exact_mod_cast this
  obtain ⟨k, hkN, hk⟩ : ∃ k : ℕ, k < N ∧ (if ⌊xu⌋ = ((N + 1 : ℕ) : ℤ) - 1 then ⌊xu⌋ - 1 else ⌊xu⌋) = (k : ℤ) := by
    push_cast
    rw [add_sub_cancel_right]
    split
    · exact ⟨N - 1, by omega, by omega⟩
    · exact ⟨⌊xu⌋.toNat, by omega, by omega⟩
  have hku : (k : α) ≤ xu ∧ xu ≤ k + 1 := by
    push_cast at hk
    rw [add_sub_cancel_right] at hk
    have f1 := Int.floor_le xu
    have f2 := (Int.lt_floor_add_one xu).le
    split at hk
    · rename_i he
      have hkN' : k + 1 = N := by omega
      have : ((k : α) + 1) = N := by exact_mod_cast hkN'
      rw [he] at f1
      have f1' : (N : α) ≤ xu := by exact_mod_cast f1
      constructor
      · linarith
      · linarith
    · rw [hk] at f1 f2
      constructor
      · exact_mod_cast f1
      · exact_mod_cast f2
  rw [hk]
  have gf : ∀ j : ℕ, j < N + 1 → ∃ p, (g.map Prod.snd)[j]? = some p := by
    intro j hj
    exact ⟨_, List.getElem?_eq_getElem (by rw [List.length_map]; omega)⟩
  obtain ⟨p, hp⟩ := gf k (by omega)
  obtain ⟨q, hq⟩ := gf (k + 1) (by omega)
  rw [pyGet_nat _ k p hp, show (k : ℤ) + 1 = ((k + 1 : ℕ) : ℤ) by push_cast; ring, pyGet_nat _ (k + 1) q hq]
  exact ⟨_, rfl, k, p, q, hp, hq, hku.1, hku.2, by push_cast; ring⟩

/-- No extrapolation inside the grid. -/
theorem extend_inside (g : List (α × α)) (hg : 2 ≤ g.length) (a b : α) (ha : (g.map Prod.fst)[0]? = some a)
    (hb : (g.map Prod.fst).getLast? = some b) (minx maxx : α) (h1 : a ≤ minx) (h2 : maxx ≤ b) (f : List α) :
    (match g with
      | (xa, _) :: (xb, _) :: _ =>
        match extendLow (xb - xa) minx g with
        | .error e => .error e
        | .ok g2 => extendHigh (xb - xa) maxx f g2
      | _ => .error .indexError : Except PyErr (List (α × α))) = .ok g := by
  match g, hg with
  | (xa, fa) :: (xb, fb) :: l, _ =>
    have hxa : xa = a := by simpa using ha
    subst hxa
    dsimp only
    have hlow : extendLow (xb - xa) minx ((xa, fa) :: (xb, fb) :: l) = .ok ((xa, fa) :: (xb, fb) :: l) := by
      unfold extendLow
      dsimp only
      rw [if_neg (not_lt.2 h1)]
    rw [hlow]
    dsimp only
    unfold extendHigh
    rw [fromEnd_last _ b hb]
    dsimp only
    rw [if_neg (not_lt.2 h2)]

theorem foldl_extremes (l : List α) : ∀ (c : α) (P : α → Prop), P c → (∀ v ∈ l, P v) →
    P (l.foldl min c) ∧ P (l.foldl max c) := by
  induction l with
  | nil => intro c P hc _; exact ⟨hc, hc⟩
  | cons b l ih =>
    intro c P hc hl
    have hb := hl b (by simp)
    constructor
    · refine (ih (min c b) P ?_ (fun v hv => hl v (List.mem_cons_of_mem _ hv))).1
      rcases min_choice c b with h | h <;> rw [h] <;> assumption
    · refine (ih (max c b) P ?_ (fun v hv => hl v (List.mem_cons_of_mem _ hv))).2
      rcases max_choice c b with h | h <;> rw [h] <;> assumption

/-- The values resampled on the uniform grid with as many points. -/
def resampled (interp : List α → List α → α → α) (x f : List α) (a b : α) : List α :=
  (List.range x.length).map fun k : ℕ => interp x f (a + k * ((b - a) / ((x.length : α) - 1)))

/-- **C50, values on any grid.**  For strictly increasing abscissae from `a` to `b`, points between these, and `nmax` large
enough, `tranproc(x, f, x0)` succeeds and its values lie on the polygon over equidistant points through the ordinates given
or through those resampled on a uniform grid. -/
theorem C50_general_partial (eps : α) (interp : List α → List α → α → α) (nmax : List α → ℕ)
    (x f x0 : List α) (hx : x.Pairwise (· < ·)) (h2 : 2 ≤ x.length) (hf : f.length = x.length) (hx0 : x0 ≠ []) (a b : α)
    (ha : x[0]? = some a) (hb : x.getLast? = some b) (hin : ∀ v ∈ x0, a ≤ v ∧ v ≤ b) (hmax : x.length ≤ nmax x) :
    ∃ F y, (F = f ∨ F = resampled interp x f a b) ∧ tranproc0 eps interp nmax x f x0 = .ok y ∧ y.length = x0.length ∧
      ∀ (i : ℕ) v w, x0[i]? = some v → y[i]? = some w → OnPolygon F (((x.length : α) - 1) * (v - a) / (b - a)) w := by
  obtain ⟨N, hN⟩ : ∃ N, x.length = N + 1 := ⟨x.length - 1, by omega⟩
  have hN1 : 1 ≤ N := by omega
  have hNpos : (0 : α) < N := by exact_mod_cast hN1
  have hcast : (x.length : α) - 1 = N := by rw [hN]; push_cast; ring
  have hab : a < b := by
    rw [List.getLast?_eq_getElem?] at hb
    obtain ⟨i1, e1⟩ := List.getElem?_eq_some_iff.1 ha
    obtain ⟨i2, e2⟩ := List.getElem?_eq_some_iff.1 hb
    rw [← e1, ← e2]
    exact List.pairwise_iff_getElem.1 hx _ _ _ _ (by omega)
  have hsort : sortPairs x f = x.zip f := by
    unfold sortPairs
    apply List.Pairwise.insertionSort_eq
    have : (x.zip f).Pairwise (fun p q => p.1 < q.1) := by
      rw [← List.pairwise_map (f := Prod.fst), List.map_fst_zip (by omega)]
      exact hx
    exact this.imp le_of_lt
  have hfst : (x.zip f).map Prod.fst = x := List.map_fst_zip (by omega)
  have hsnd : (x.zip f).map Prod.snd = f := List.map_snd_zip (by omega)
  obtain ⟨v0, vs, rfl⟩ := List.exists_cons_of_ne_nil hx0
  have hext := foldl_extremes vs v0 (fun v => a ≤ v ∧ v ≤ b) (hin v0 (by simp))
    (fun v hv => hin v (List.mem_cons_of_mem _ hv))
  -- the grid after resampling
  obtain ⟨g, hg1, hgl, hga, hgb, hgF⟩ : ∃ g : List (α × α),
      (if mustResample eps x (max x.length 2) (some (max (nmax x) 2)) (b - a) then
        resample interp (x.zip f) a b (min (max x.length 2) (max (nmax x) 2)) else .ok (x.zip f)) = .ok g ∧
      g.length = N + 1 ∧ (g.map Prod.fst)[0]? = some a ∧ (g.map Prod.fst).getLast? = some b ∧
      (g.map Prod.snd = f ∨ g.map Prod.snd = resampled interp x f a b) := by
    by_cases hr : mustResample eps x (max x.length 2) (some (max (nmax x) 2)) (b - a) = true
    · rw [if_pos hr]
      have hmin : min (max x.length 2) (max (nmax x) 2) = N + 1 := by omega
      rw [hmin]
      unfold resample
      dsimp only
      have hdx : (b - a) / (((N + 1 : ℕ) : α) - 1) = (b - a) / N := by push_cast; rw [add_sub_cancel_right]
      rw [hdx]
      have hpos : 0 < (b - a) / (N : α) := div_pos (by linarith) hNpos
      rw [if_neg hpos.ne']
      have hceil : (⌈(b + (b - a) / (N : α) / 2 - a) / ((b - a) / (N : α))⌉).toNat = N + 1 := by
        have hd : b - a ≠ 0 := by linarith
        have : (b + (b - a) / (N : α) / 2 - a) / ((b - a) / (N : α)) = N + 1 / 2 := by
          field_simp
          ring
        rw [this, show (N : α) + 1 / 2 = 1 / 2 + ((N : ℤ) : α) by push_cast; ring, Int.ceil_add_intCast]
        have : ⌈(1 : α) / 2⌉ = 1 := by
          rw [Int.ceil_eq_iff]
          constructor <;> norm_num
        rw [this]; omega
      refine ⟨_, rfl, ?_, ?_, ?_, Or.inr ?_⟩
      · rw [List.length_map]
        unfold arange
        rw [hceil, List.length_map, List.length_range]
      · unfold arange
        rw [hceil, List.map_map, List.map_map, List.getElem?_map, List.getElem?_range (by omega)]
        simp
      · unfold arange
        rw [hceil, List.map_map, List.map_map, List.getLast?_map, List.range_succ, List.getLast?_append]
        simp only [List.getLast?_singleton, Option.some_or, Option.map_some, Function.comp]
        congr 1
        field_simp
        ring
      · unfold arange resampled
        rw [hceil, List.map_map, List.map_map, hfst, hsnd, hcast, hN]
        rfl
    · rw [if_neg hr]
      refine ⟨_, rfl, by rw [List.length_zip, hf, min_self, hN], by rw [hfst]; exact ha, by rw [hfst]; exact hb, Or.inl hsnd⟩
  have htg : trangood eps interp x f none (some (vs.foldl min v0)) (some (vs.foldl max v0)) (some (nmax x)) = .ok g := by
    unfold trangood
    rw [if_neg (by omega)]
    dsimp only
    rw [hsort, hfst, if_pos]
    · have hh0 : x.head? = some a := by rw [List.head?_eq_getElem?]; exact ha
      rw [hh0, hb]
      simp only [Option.getD_some, Option.getD_none, Option.map_some]
      rw [hg1]
      exact extend_inside g (by omega) a b hga hgb _ _ hext.1.1 hext.2.2 f
    · rw [List.all_eq_true]
      intro d hd
      simpa using (diff_pos_iff x).2 hx d hd
  have hval : ∀ v, a ≤ v → v ≤ b → ∃ w, valueAt f.length g v = .ok w ∧
      OnPolygon (g.map Prod.snd) (N * (v - a) / (b - a)) w := by
    intro v h1 h2
    rw [hf, hN]
    exact valueAt_polygon g N hN1 hgl a b hab hga hgb v h1 h2
  obtain ⟨r, r1, r2, r3⟩ := mapM_ok (valueAt f.length g) (v0 :: vs) (fun v hv => by
    obtain ⟨w, hw, _⟩ := hval v (hin v hv).1 (hin v hv).2
    exact ⟨w, hw⟩)
  refine ⟨g.map Prod.snd, r, hgF, ?_, r2, ?_⟩
  · unfold tranproc0
    dsimp only
    rw [htg]
    exact r1
  · intro i v w hv hw
    have hvm := List.mem_of_getElem? hv
    obtain ⟨w', hw', hk⟩ := hval v (hin v hvm).1 (hin v hvm).2
    rw [r3 i v w hv hw] at hw'
    cases hw'
    rw [hcast]
    exact hk

/-- The hypotheses on three abscissae that are not equidistant, and the value found. -/
example : tranproc0 (0 : ℚ) (fun x f v => LevelX.npInterp v x f) (fun _ => 1000) [0, 1, 3] [0, 1, 2] [1, 0, 3]
    = .ok [5 / 6, 0, 2] := by decide +kernel

/-! ### Monotonicity -/

theorem polygon_mono (F : List α) (hF : F.Pairwise (· ≤ ·)) (u u' w w' : α) (h : OnPolygon F u w) (h' : OnPolygon F u' w')
    (hu : u ≤ u') : w ≤ w' := by
  obtain ⟨k, p, q, hp, hq, h1, h2, rfl⟩ := h
  obtain ⟨k', p', q', hp', hq', h1', h2', rfl⟩ := h'
  have hle : ∀ (i j : ℕ) (s t : α), F[i]? = some s → F[j]? = some t → i ≤ j → s ≤ t := by
    intro i j s t hs ht hij
    obtain ⟨i1, e1⟩ := List.getElem?_eq_some_iff.1 hs
    obtain ⟨i2, e2⟩ := List.getElem?_eq_some_iff.1 ht
    rcases Nat.lt_or_eq_of_le hij with hlt | rfl
    · rw [← e1, ← e2]; exact List.pairwise_iff_getElem.1 hF _ _ _ _ hlt
    · rw [← e1, ← e2]
  have hpq := hle _ _ _ _ hp hq (by omega)
  have hpq' := hle _ _ _ _ hp' hq' (by omega)
  rcases lt_trichotomy k k' with hk | hk | hk
  · have : q ≤ p' := hle _ _ _ _ hq hp' (by omega)
    nlinarith
  · subst hk
    rw [hp] at hp'; rw [hq] at hq'
    cases hp'; cases hq'
    have := mul_le_mul_of_nonneg_left (sub_le_sub_right hu (k : α)) (sub_nonneg.2 hpq)
    linarith
  · have hk1 : (k' : α) + 1 ≤ k := by exact_mod_cast hk
    have e1 : u = k := by linarith
    have e2 : u' = k' + 1 := by linarith
    have e3 : (k : α) = k' + 1 := by linarith
    have : k = k' + 1 := by exact_mod_cast e3
    subst this
    rw [hp] at hq'
    cases hq'
    rw [e1, e2]
    apply le_of_eq
    push_cast
    ring

theorem polygon_neg (F : List α) (u w : α) (h : OnPolygon F u w) : OnPolygon (F.map (- ·)) u (-w) := by
  obtain ⟨k, p, q, hp, hq, h1, h2, rfl⟩ := h
  exact ⟨k, -p, -q, by simp [hp], by simp [hq], h1, h2, by ring⟩

theorem polygon_anti (F : List α) (hF : F.Pairwise (· ≥ ·)) (u u' w w' : α) (h : OnPolygon F u w) (h' : OnPolygon F u' w')
    (hu : u ≤ u') : w' ≤ w := by
  have := polygon_mono (F.map (- ·)) (by rw [List.pairwise_map]; exact hF.imp fun h => neg_le_neg h) u u' _ _
    (polygon_neg F u w h) (polygon_neg F u' w' h') hu
  exact neg_le_neg_iff.1 this

theorem polygon_bounds (F : List α) (lo hi : α) (hF : ∀ v ∈ F, lo ≤ v ∧ v ≤ hi) (u w : α) (h : OnPolygon F u w) :
    lo ≤ w ∧ w ≤ hi := by
  obtain ⟨k, p, q, hp, hq, h1, h2, rfl⟩ := h
  have b1 := hF p (List.mem_of_getElem? hp)
  have b2 := hF q (List.mem_of_getElem? hq)
  have t0 : 0 ≤ u - k := by linarith
  have t1 : 0 ≤ 1 - (u - k) := by linarith
  have e : p + (q - p) * (u - k) = (1 - (u - k)) * p + (u - k) * q := by ring
  rw [e]
  constructor
  · nlinarith [mul_le_mul_of_nonneg_left b1.1 t1, mul_le_mul_of_nonneg_left b2.1 t0]
  · nlinarith [mul_le_mul_of_nonneg_left b1.2 t1, mul_le_mul_of_nonneg_left b2.2 t0]

end

section
variable {α : Type} [Field α] [LinearOrder α] [IsStrictOrderedRing α] [FloorRing α]

open LevelX

theorem npInterp_bounds (lo hi : α) : ∀ (x f : List α), x.Pairwise (· < ·) → x ≠ [] → f ≠ [] → (∀ v ∈ f, lo ≤ v ∧ v ≤ hi) →
    ∀ u, lo ≤ npInterp u x f ∧ npInterp u x f ≤ hi
  | [], _, _, hx, _, _, _ => absurd rfl hx
  | _, [], _, _, hf, _, _ => absurd rfl hf
  | [_], f :: _, _, _, _, h, u => by simpa [npInterp] using h f (by simp)
  | _ :: _ :: _, [f], _, _, _, h, u => by simpa [npInterp] using h f (by simp)
  | x0 :: x1 :: x, f0 :: f1 :: f, hx, _, _, h, u => by
    have b0 := h f0 (by simp)
    have b1 := h f1 (by simp)
    have hlt : x0 < x1 := (List.pairwise_cons.1 hx).1 x1 (by simp)
    rw [npInterp]
    split_ifs with c1 c2
    · exact b0
    · have hd : 0 < x1 - x0 := by linarith
      set t := (u - x0) / (x1 - x0) with ht
      have t0 : 0 ≤ t := div_nonneg (by linarith) hd.le
      have t1 : 0 ≤ 1 - t := by
        rw [sub_nonneg, ht, div_le_one hd]; linarith
      have e : f0 + (f1 - f0) * t = (1 - t) * f0 + t * f1 := by ring
      rw [e]
      constructor
      · nlinarith [mul_le_mul_of_nonneg_left b0.1 t1, mul_le_mul_of_nonneg_left b1.1 t0]
      · nlinarith [mul_le_mul_of_nonneg_left b0.2 t1, mul_le_mul_of_nonneg_left b1.2 t0]
    · exact npInterp_bounds lo hi (x1 :: x) (f1 :: f) (List.pairwise_cons.1 hx).2 (by simp) (by simp)
        (fun v hv => h v (List.mem_cons_of_mem _ hv)) u

theorem npInterp_ge_head (x f : List α) (f0 : α) (hx : x.Pairwise (· < ·)) (hx0 : x ≠ [])
    (hf : (f0 :: f).Pairwise (· ≤ ·)) (u : α) : f0 ≤ npInterp u x (f0 :: f) := by
  obtain ⟨hi, hhi⟩ : ∃ hi, ∀ v ∈ f0 :: f, v ≤ hi := by
    refine ⟨(f0 :: f).getLast (by simp), fun v hv => ?_⟩
    exact List.Pairwise.rel_getLast hf hv
  exact (npInterp_bounds f0 hi x (f0 :: f) hx hx0 (by simp) (fun v hv => ⟨by
    rcases List.mem_cons.1 hv with rfl | h
    · exact le_rfl
    · exact (List.pairwise_cons.1 hf).1 v h, hhi v hv⟩) u).1

theorem npInterp_mono : ∀ (x f : List α), x.Pairwise (· < ·) → f.Pairwise (· ≤ ·) → ∀ u u', u ≤ u' →
    npInterp u x f ≤ npInterp u' x f
  | [], _, _, _, _, _, _ => by simp [npInterp]
  | _ :: _, [], _, _, _, _, _ => by simp [npInterp]
  | [_], f :: _, _, _, _, _, _ => by simp [npInterp]
  | _ :: _ :: _, [f], _, _, _, _, _ => by simp [npInterp]
  | x0 :: x1 :: x, f0 :: f1 :: f, hx, hf, u, u', hu => by
    have hlt : x0 < x1 := (List.pairwise_cons.1 hx).1 x1 (by simp)
    have hd : 0 < x1 - x0 := by linarith
    have hle : f0 ≤ f1 := (List.pairwise_cons.1 hf).1 f1 (by simp)
    have hrest := npInterp_mono (x1 :: x) (f1 :: f) (List.pairwise_cons.1 hx).2 (List.pairwise_cons.1 hf).2 u u' hu
    have hhead := npInterp_ge_head (x1 :: x) f f1 (List.pairwise_cons.1 hx).2 (by simp) (List.pairwise_cons.1 hf).2 u'
    have seg : ∀ v, x0 ≤ v → v ≤ x1 → 0 ≤ (v - x0) / (x1 - x0) ∧ (v - x0) / (x1 - x0) ≤ 1 := by
      intro v a b
      exact ⟨div_nonneg (by linarith) hd.le, by rw [div_le_one hd]; linarith⟩
    rw [npInterp, npInterp]
    split_ifs with c1 c2 c3 c4 c5 c6
    · exact le_rfl
    · have := seg u' (by linarith) (by linarith)
      nlinarith
    · linarith
    · linarith
    · have : (u - x0) / (x1 - x0) ≤ (u' - x0) / (x1 - x0) := div_le_div_of_nonneg_right (by linarith) hd.le
      nlinarith
    · have := seg u (by linarith) (by linarith)
      nlinarith
    · linarith
    · linarith
    · exact hrest

theorem npInterp_neg : ∀ (x f : List α) (u : α), npInterp u x (f.map (- ·)) = -npInterp u x f
  | [], _, _ => by simp [npInterp]
  | _ :: _, [], _ => by simp [npInterp]
  | [_], f :: _, _ => by simp [npInterp]
  | _ :: _ :: _, [f], _ => by simp [npInterp]
  | x0 :: x1 :: x, f0 :: f1 :: f, u => by
    have h := npInterp_neg (x1 :: x) (f1 :: f) u
    simp only [List.map_cons] at h
    simp only [List.map_cons, npInterp, h]
    split_ifs <;> ring

theorem npInterp_anti (x f : List α) (hx : x.Pairwise (· < ·)) (hf : f.Pairwise (· ≥ ·)) (u u' : α) (hu : u ≤ u') :
    npInterp u' x f ≤ npInterp u x f := by
  have := npInterp_mono x (f.map (- ·)) hx (by rw [List.pairwise_map]; exact hf.imp fun h => neg_le_neg h) u u' hu
  rw [npInterp_neg, npInterp_neg] at this
  exact neg_le_neg_iff.1 this

end

end Wafo.Tran
