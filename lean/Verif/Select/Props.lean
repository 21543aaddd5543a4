import Verif.Select.Lemmas

/-!
Properties C36 - C40.
-/

namespace Wafo.Select

/-! ## C36 -/

/-- The positions at which `hay` equals `needle`, in increasing order. -/
def matches' {α : Type*} [DecidableEq α] (hay : List α) (needle : α) : List ℕ :=
  (List.range hay.length).filter (fun i => decide (hay[i]? = some needle))

/-- **C36.**  `lfind` without a limit yields exactly all matching positions in increasing order, with the
limit `m` exactly the first `m` of them (none for a negative limit), for all lists. -/
theorem C36_lfind {α : Type*} [DecidableEq α] (hay : List α) (needle : α) :
    lfind hay needle none = matches' hay needle ∧
    ∀ m : ℤ, lfind hay needle (some m) = (matches' hay needle).take m.toNat := by
  have hp : pos needle (hay.drop 0) 0 = matches' hay needle := by
    rw [List.drop_zero, pos_eq_filter, matches', List.range_eq_range']
    rfl
  constructor
  · unfold lfind
    rw [lfindGo_eq hay needle none _ 0 0 (by omega) le_rfl, hp]
  · intro m
    unfold lfind
    rw [lfindGo_eq hay needle (some m) _ 0 0 (by omega) le_rfl]
    simp only [hp, sub_zero]

example : lfind [1, 3, 4, 3, 10, 3] 3 none = [1, 3, 5] ∧ lfind [1, 3, 4, 3, 10, 3] 3 (some 2) = [1, 3] := by
  decide

/-! ## C37 -/

section
variable {α β : Type*}

/-- **C37, values.**  For a non-empty list of conditions, each with one entry per point, and a matching list
of functions: every point gets the value of the last function whose condition holds there; where no
condition holds it gets the value of the extra function, or `fill` if there is no extra function. -/
theorem C37_piecewise (conds : List (List Bool)) (funcs : List (Fn α β)) (xs : List α) (fill : β)
    (hne : conds ≠ []) (hc : ∀ c ∈ conds, c.length = xs.length)
    (hl : funcs.length = conds.length ∨ funcs.length = conds.length + 1) :
    ∃ out, piecewise conds funcs xs fill = .ok out ∧ out.length = xs.length ∧
      ∀ (k : ℕ) x, xs[k]? = some x →
        (∀ (i : ℕ) c f, conds[i]? = some c → funcs[i]? = some f → c[k]? = some true →
          (∀ (i' : ℕ) c', i < i' → conds[i']? = some c' → c'[k]? = some false) →
            out[k]? = some (f.app x)) ∧
        ((∀ c ∈ conds, c[k]? = some false) →
          (∀ f, funcs[conds.length]? = some f → out[k]? = some (f.app x)) ∧
          (funcs[conds.length]? = none → out[k]? = some fill)) := by
  obtain ⟨c0, cs, rfl⟩ := List.exists_cons_of_ne_nil hne
  obtain ⟨o1, o2⟩ := otherwise_spec c0 cs xs.length hc
  set conds := c0 :: cs with hconds
  set conds' := if (conds.length : ℤ) = funcs.length - 1 then conds ++ [otherwise conds] else conds
    with hconds'
  have hfill : (xs.map (fun _ => fill)).length = xs.length := by simp
  have hall : ∀ c ∈ conds', c.length = xs.length := by
    rw [hconds']
    split
    · intro c hcm
      rcases List.mem_append.1 hcm with h | h
      · exact hc c h
      · simp at h; rw [h]; exact o1
    · exact hc
  obtain ⟨out, e1, e2, e3⟩ := piecewiseLoop_spec xs (conds'.zip funcs) (xs.map (fun _ => fill))
    (fun p hp => hall p.1 (List.of_mem_zip hp).1) hfill
  refine ⟨out, ?_, e2, ?_⟩
  · unfold piecewise
    rw [if_pos (by omega)]
    exact e1
  · intro k x hx
    have hk : k < xs.length := (List.getElem?_eq_some_iff.1 hx).1
    have hval := e3 k x fill hx (by rw [List.getElem?_map, hx]; rfl)
    have hzip : ∀ (i : ℕ) c f, (conds'.zip funcs)[i]? = some (c, f) ↔
        conds'[i]? = some c ∧ funcs[i]? = some f := by
      intro i c f
      rw [List.getElem?_zip_eq_some]
    have hpre : ∀ (i : ℕ), i < conds.length → conds'[i]? = conds[i]? := by
      intro i hi
      rw [hconds']
      split
      · rw [List.getElem?_append_left hi]
      · rfl
    have hlast : funcs.length = conds.length + 1 → conds'[conds.length]? = some (otherwise conds) := by
      intro h
      rw [hconds', if_pos (by omega), List.getElem?_append_right le_rfl]
      simp
    have hlen' : conds'.length ≤ conds.length + 1 := by
      rw [hconds']; split <;> simp
    constructor
    · intro i c f hci hfi hct hlater
      rw [hval]
      congr 1
      have hi : i < conds.length := (List.getElem?_eq_some_iff.1 hci).1
      apply lastVal_at k x _ _ i c f ((hzip i c f).2 ⟨by rw [hpre i hi, hci], hfi⟩) hct
      rintro i' ⟨c', f'⟩ hii hp
      obtain ⟨hp1, hp2⟩ := (hzip i' c' f').1 hp
      dsimp only
      by_cases hi' : i' < conds.length
      · rw [hpre i' hi'] at hp1
        rw [hlater i' c' hii hp1]
        simp
      · have hi'2 : i' < conds'.length := (List.getElem?_eq_some_iff.1 hp1).1
        have hi'3 : i' < funcs.length := (List.getElem?_eq_some_iff.1 hp2).1
        have : i' = conds.length := by omega
        subst this
        rw [hlast (by omega)] at hp1
        simp only [Option.some.injEq] at hp1
        rw [← hp1]
        intro ht
        have := (o2 k hk).1 ht c (List.mem_of_getElem? hci)
        rw [hct] at this
        simp at this
    · intro hnone
      constructor
      · intro f hf
        rw [hval]
        congr 1
        have hlt : conds.length < funcs.length := (List.getElem?_eq_some_iff.1 hf).1
        apply lastVal_at k x _ _ conds.length (otherwise conds) f
          ((hzip _ _ _).2 ⟨hlast (by omega), hf⟩) ((o2 k hk).2 hnone)
        rintro i' ⟨c', f'⟩ hii hp
        obtain ⟨hp1, _⟩ := (hzip i' c' f').1 hp
        have : i' < conds'.length := (List.getElem?_eq_some_iff.1 hp1).1
        omega
      · intro hf
        rw [List.getElem?_eq_none_iff] at hf
        rw [hval]
        congr 1
        apply lastVal_none
        rintro ⟨c, f⟩ hp
        have hcm := (List.of_mem_zip hp).1
        rw [hconds', if_neg (by omega)] at hcm
        dsimp only
        rw [hnone c hcm]
        simp

/-- **C37, wrong number of functions** raises a ValueError. -/
theorem C37_wrong_length (conds : List (List Bool)) (funcs : List (Fn α β)) (xs : List α) (fill : β)
    (h : funcs.length ≠ conds.length ∧ funcs.length ≠ conds.length + 1) :
    piecewise conds funcs xs fill = .error .valueError := by
  unfold piecewise
  rw [if_neg (by omega)]

end

example : piecewise [[false, false, true, true, true], [false, false, false, false, true]]
    [Fn.call (fun x : ℕ => x * x), Fn.const 3] [0, 1, 2, 3, 4] 7 = .ok [7, 7, 4, 9, 3] := by rfl

example : piecewise [[false, false, true, true, true]]
    [Fn.call (fun x : ℕ => x * x), Fn.const 3] [0, 1, 2, 3, 4] 7 = .ok [3, 3, 4, 9, 16] := by rfl

/-! ## C38 -/

section
variable {α β : Type*}

theorem lazyselectLoop_eq (xs : List α) : ∀ (cs : List (List Bool)) (fs : List (α → β)) (out : List β),
    (∀ c ∈ cs, c.length = xs.length) → out.length = xs.length → cs.length ≤ fs.length →
    ∃ out', lazyselectLoop xs cs fs out = .ok out' ∧ out'.length = xs.length ∧
      ∀ (k : ℕ) x o, xs[k]? = some x → out[k]? = some o →
        out'[k]? = some (lastVal k x (cs.zip (fs.map Fn.call)) o)
  | [], fs, out, _, h, _ => ⟨out, rfl, h, fun k x o _ ho => by simpa [lastVal] using ho⟩
  | c :: cs, [], out, _, _, h => by simp at h
  | c :: cs, f :: fs, out, hc, ho, hl => by
      obtain ⟨o1, e1, e2, e3⟩ := place_map f out c xs (hc c (by simp)) ho
      obtain ⟨o2, g1, g2, g3⟩ := lazyselectLoop_eq xs cs fs o1
        (fun d hd => hc d (List.mem_cons_of_mem _ hd)) e2 (by simpa using hl)
      refine ⟨o2, by simp only [lazyselectLoop, e1, g1], g2, ?_⟩
      intro k x o hx hok
      have hk : k < c.length := by rw [hc c (by simp)]; exact (List.getElem?_eq_some_iff.1 hx).1
      have hck : c[k]? = some c[k] := List.getElem?_eq_getElem hk
      rw [g3 k x _ hx (e3 k x o _ hx hok hck)]
      simp only [List.map_cons, List.zip_cons_cons, lastVal, hck, Fn.app, Option.some.injEq]

/-- **C38, what is computed.**  The *last* condition that holds decides; where none holds the default is
returned. -/
theorem C38_last_wins (conds : List (List Bool)) (choices : List (α → β)) (xs : List α) (default : β)
    (hc : ∀ c ∈ conds, c.length = xs.length) (hl : conds.length ≤ choices.length) :
    ∃ out, lazyselect conds choices xs default = .ok out ∧ out.length = xs.length ∧
      ∀ (k : ℕ) x, xs[k]? = some x →
        (∀ (i : ℕ) c f, conds[i]? = some c → choices[i]? = some f → c[k]? = some true →
          (∀ (i' : ℕ) c', i < i' → conds[i']? = some c' → c'[k]? = some false) →
            out[k]? = some (f x)) ∧
        ((∀ c ∈ conds, c[k]? = some false) → out[k]? = some default) := by
  obtain ⟨out, e1, e2, e3⟩ := lazyselectLoop_eq xs conds choices (xs.map (fun _ => default)) hc
    (by simp) hl
  refine ⟨out, e1, e2, ?_⟩
  intro k x hx
  have hval := e3 k x default hx (by rw [List.getElem?_map, hx]; rfl)
  constructor
  · intro i c f hci hfi hct hlater
    rw [hval, lastVal_at k x _ _ i c (Fn.call f) ?_ hct ?_]
    · rfl
    · rw [List.getElem?_zip_eq_some]; exact ⟨hci, by rw [List.getElem?_map, hfi]; rfl⟩
    · rintro i' ⟨c', f'⟩ hii hp
      rw [List.getElem?_zip_eq_some] at hp
      dsimp only
      rw [hlater i' c' hii hp.1]
      simp
  · intro hnone
    rw [hval, lastVal_none]
    rintro ⟨c, f⟩ hp
    dsimp only
    rw [hnone c (List.of_mem_zip hp).1]
    simp

/-- `numpy.select` at point `k`: the choice of the first condition that holds there, else the default. -/
def npSelect (k : ℕ) (x : α) (default : β) : List (List Bool) → List (α → β) → β
  | c :: cs, f :: fs => if c[k]? = some true then f x else npSelect k x default cs fs
  | _, _ => default

/-- **C38, what holds.**  If at most one condition holds at each point the result is that of
`numpy.select`. -/
theorem C38_disjoint_partial (conds : List (List Bool)) (choices : List (α → β)) (xs : List α)
    (default : β) (hc : ∀ c ∈ conds, c.length = xs.length) (hl : conds.length ≤ choices.length)
    (hd : ∀ (k i i' : ℕ) c c', i < i' → conds[i]? = some c → conds[i']? = some c' →
      c[k]? = some true → c'[k]? = some false) :
    ∃ out, lazyselect conds choices xs default = .ok out ∧
      ∀ (k : ℕ) x, xs[k]? = some x → out[k]? = some (npSelect k x default conds choices) := by
  obtain ⟨out, e1, e2, e3⟩ := C38_last_wins conds choices xs default hc hl
  refine ⟨out, e1, ?_⟩
  intro k x hx
  have hk : k < xs.length := (List.getElem?_eq_some_iff.1 hx).1
  obtain ⟨h1, h2⟩ := e3 k x hx
  -- locate the first condition that holds
  have key : ∀ (cs : List (List Bool)) (fs : List (α → β)), cs.length ≤ fs.length →
      (∀ c ∈ cs, c.length = xs.length) →
      ((∀ c ∈ cs, c[k]? = some false) ∧ npSelect k x default cs fs = default) ∨
      ∃ (i : ℕ) (c : List Bool) (f : α → β), cs[i]? = some c ∧ fs[i]? = some f ∧ c[k]? = some true ∧
        npSelect k x default cs fs = f x := by
    intro cs
    induction cs with
    | nil => intro fs _ _; left; exact ⟨by simp, by simp [npSelect]⟩
    | cons c cs ih =>
      intro fs hfs hcs
      cases fs with
      | nil => simp at hfs
      | cons f fs =>
        have hkl : k < c.length := by rw [hcs c (by simp)]; exact hk
        have hkc : c[k]? = some c[k] := List.getElem?_eq_getElem hkl
        cases hb : c[k] with
        | true =>
          right
          exact ⟨0, c, f, rfl, rfl, by rw [hkc, hb], by simp [npSelect, hkc, hb]⟩
        | false =>
          rcases ih fs (by simpa using hfs) (fun d hd => hcs d (List.mem_cons_of_mem _ hd)) with
            ⟨a, b⟩ | ⟨i, c', f', a, b, d, e⟩
          · left
            refine ⟨?_, by simp [npSelect, hkc, hb, b]⟩
            intro d hd
            rcases List.mem_cons.1 hd with rfl | hd
            · rw [hkc, hb]
            · exact a d hd
          · right
            exact ⟨i + 1, c', f', by simpa using a, by simpa using b, d,
              by simp [npSelect, hkc, hb, e]⟩
  rcases key conds choices hl hc with ⟨a, b⟩ | ⟨i, c, f, a, b, d, e⟩
  · rw [h2 a, b]
  · rw [h1 i c f a b d ?_, e]
    intro i' c' hii hc'
    exact hd k i i' c c' hii a hc' d

end

/-- **C38 refuted.**  With overlapping conditions `lazyselect` differs from `numpy.select`. -/
theorem C38_refuted : ∃ (conds : List (List Bool)) (choices : List (ℕ → ℕ)) (xs : List ℕ),
    (∀ c ∈ conds, c.length = xs.length) ∧ conds.length = choices.length ∧
    lazyselect conds choices xs 0 = .ok [20] ∧
    xs.mapIdx (fun k x => npSelect k x 0 conds choices) = [10] :=
  ⟨[[true], [true]], [fun _ => 10, fun _ => 20], [5], by decide, by decide, rfl, by decide⟩

example : lazyselect [[true, false, false], [false, false, true]] [fun x : ℕ => x * x, fun x => x + 1]
    [3, 4, 5] 0 = .ok [9, 0, 6] := by rfl

/-! ## C39 -/

section
variable {α β : Type*}

/-- **C39, values.**  With a fill value: `f` of the point where the condition holds and the fill value
elsewhere.  With `f2`: `f` or `f2` of the point. -/
theorem C39_lazywhere (nan : β) (cond : List Bool) (xs : List α) (f : α → β)
    (hc : cond.length = xs.length) :
    (∀ v, ∃ out, lazywhere nan cond xs f (some v) none = .ok out ∧ out.length = xs.length ∧
      ∀ (k : ℕ) x b, xs[k]? = some x → cond[k]? = some b → out[k]? = some (if b then f x else v)) ∧
    (∀ g, ∃ out, lazywhere nan cond xs f none (some g) = .ok out ∧ out.length = xs.length ∧
      ∀ (k : ℕ) x b, xs[k]? = some x → cond[k]? = some b → out[k]? = some (if b then f x else g x)) := by
  constructor
  · intro v
    obtain ⟨out, e1, e2, e3⟩ := place_map f (xs.map (fun _ => v)) cond xs hc (by simp)
    refine ⟨out, e1, e2, ?_⟩
    intro k x b hx hb
    exact e3 k x v b hx (by rw [List.getElem?_map, hx]; rfl) hb
  · intro g
    obtain ⟨out, e1, e2, e3⟩ := place_map f (xs.map (fun _ => nan)) cond xs hc (by simp)
    obtain ⟨out2, g1, g2, g3⟩ := place_map g out (cond.map (!·)) xs (by simp [hc]) e2
    refine ⟨out2, by simp only [lazywhere, e1, g1], g2, ?_⟩
    intro k x b hx hb
    have h1 := e3 k x nan b hx (by rw [List.getElem?_map, hx]; rfl) hb
    rw [g3 k x _ (!b) hx h1 (by rw [List.getElem?_map, hb]; rfl)]
    cases b <;> rfl

/-- **C39, laziness.**  The result does not depend on what `f` does at points where the condition fails, nor
(with `f2`) on what `f2` does where it holds: `f` only ever sees the points that satisfy the
condition. -/
theorem C39_lazy (nan : β) (cond : List Bool) (xs : List α) (f f' : α → β) (fill : Option β)
    (g g' : Option (α → β))
    (hf : ∀ x, (true, x) ∈ cond.zip xs → f x = f' x)
    (hg : (g = none ∧ g' = none) ∨ ∃ h h', g = some h ∧ g' = some h' ∧
      ∀ x, (false, x) ∈ cond.zip xs → h x = h' x) :
    lazywhere nan cond xs f fill g = lazywhere nan cond xs f' fill g' := by
  have ext : ∀ (c : List Bool) (ys : List α) (u u' : α → β),
      (∀ x, (true, x) ∈ c.zip ys → u x = u' x) → (extract c ys).map u = (extract c ys).map u' := by
    intro c
    induction c with
    | nil => intro ys u u' _; rfl
    | cons b c ih =>
      intro ys u u' h
      cases ys with
      | nil => rfl
      | cons y ys =>
        have ih' := ih ys u u' (fun x hx => h x (by simp [hx]))
        cases b
        · simpa [extract] using ih'
        · simp only [extract, if_true, List.map_cons, ih']
          rw [h y (by simp)]
  have h1 := ext cond xs f f' hf
  have hneg : ∀ (c : List Bool) (ys : List α) x, (true, x) ∈ (c.map (!·)).zip ys →
      (false, x) ∈ c.zip ys := by
    intro c
    induction c with
    | nil => intro ys x hx; simp at hx
    | cons b c ih =>
      intro ys x hx
      cases ys with
      | nil => simp at hx
      | cons y ys =>
        simp only [List.map_cons, List.zip_cons_cons, List.mem_cons, Prod.mk.injEq] at hx ⊢
        rcases hx with ⟨a, b'⟩ | hx
        · left; exact ⟨by cases b with | false => rfl | true => exact absurd a (by simp), b'⟩
        · right; exact ih ys x hx
  rcases hg with ⟨rfl, rfl⟩ | ⟨h, h', rfl, rfl, hh⟩
  · unfold lazywhere; cases fill <;> simp only [h1]
  · have h2 := ext (cond.map (!·)) xs h h' (fun x hx => hh x (hneg cond xs x hx))
    unfold lazywhere; cases fill <;> simp only [h1, h2]

/-- **C39, arguments.**  Exactly one of `fillvalue` and `f2` must be given. -/
theorem C39_arguments (nan : β) (cond : List Bool) (xs : List α) (f : α → β) (v : β) (g : α → β) :
    lazywhere nan cond xs f none none = .error .valueError ∧
    lazywhere nan cond xs f (some v) (some g) = .error .valueError := ⟨rfl, rfl⟩

end

example : lazywhere 0 [false, false, true, true] [1, 2, 3, 4] (fun a => a * 10) none
    (some (fun a : ℕ => a + 1)) = .ok [2, 3, 30, 40] := by rfl

/-! ## C40 -/

section
variable {κ υ : Type*} [DecidableEq κ]

/-- **C40, `sub_dict_select`.**  For distinct selected keys the result has exactly the selected keys that are
in the dictionary, with the values of the dictionary. -/
theorem C40_sub_dict_select (d : List (κ × υ)) (keys : List κ) (h : keys.Nodup) :
    ((subDictSelect d keys).map Prod.fst).Nodup ∧
    ∀ q, get? (subDictSelect d keys) q = if q ∈ keys then get? d q else none := by
  rw [subDictSelect_eq d keys h]
  exact ⟨selected_keys_nodup d keys h, get?_selected d keys⟩

/-- **C40, `parse_kwargs`.**  The result has exactly the keys of `options`, in the same order; a key takes the
value given in `kwargs` if there is one and keeps its value otherwise; keywords that are not options are
ignored. -/
theorem C40_parse_kwargs (options kwargs : List (κ × υ)) (h : (options.map Prod.fst).Nodup) :
    (parseKwargs options kwargs).map Prod.fst = options.map Prod.fst ∧
    ∀ q, get? (parseKwargs options kwargs) q
      = if q ∈ options.map Prod.fst then (get? kwargs q).or (get? options q) else none := by
  obtain ⟨n1, n2⟩ := C40_sub_dict_select kwargs (options.map Prod.fst) h
  have hkeys : ∀ k ∈ (subDictSelect kwargs (options.map Prod.fst)).map Prod.fst,
      k ∈ options.map Prod.fst := by
    rw [subDictSelect_eq kwargs _ h]
    intro k hk
    rw [List.mem_map] at hk
    obtain ⟨⟨k', v⟩, hm, rfl⟩ := hk
    rw [List.mem_filterMap] at hm
    obtain ⟨k2, hk2, hv⟩ := hm
    cases hg : get? kwargs k2 with
    | none => rw [hg] at hv; simp at hv
    | some w => rw [hg] at hv; simp at hv; rw [← hv.1]; exact hk2
  have hnone : ∀ q, q ∉ options.map Prod.fst → get? options q = none := by
    intro q hq
    unfold get?
    rw [Option.map_eq_none_iff, List.find?_eq_none]
    intro x hx
    simp only [decide_eq_true_eq]
    rintro rfl
    exact hq (List.mem_map_of_mem hx)
  have hupd : parseKwargs options kwargs
      = update options (subDictSelect kwargs (options.map Prod.fst)) := by
    unfold parseKwargs
    dsimp only
    split
    · rfl
    · rename_i h0
      have : subDictSelect kwargs (options.map Prod.fst) = [] := by
        rw [← List.length_eq_zero_iff]; omega
      rw [this]; rfl
  rw [hupd]
  refine ⟨update_keys _ _ hkeys, ?_⟩
  intro q
  rw [get?_update _ _ n1, n2]
  by_cases hq : q ∈ options.map Prod.fst
  · simp [hq]
  · rw [if_neg hq, if_neg hq, hnone q hq]; rfl

end

example : parseKwargs [("arg1", 2), ("arg2", 3)] [("arg2", 100), ("arg3", 1000)]
    = [("arg1", 2), ("arg2", 100)] := by decide

end Wafo.Select
