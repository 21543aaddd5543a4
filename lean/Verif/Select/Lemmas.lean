import Verif.Select.Model
import Mathlib.Data.List.Nodup

set_option linter.unusedSectionVars false

namespace Wafo.Select

section
variable {α : Type*} [DecidableEq α]

/-- Positions of `needle` in a list whose first element has index `off`. -/
def pos (needle : α) : List α → ℕ → List ℕ
  | [], _ => []
  | a :: l, off => if a = needle then off :: pos needle l (off + 1) else pos needle l (off + 1)

theorem pos_eq_filter (needle : α) (l : List α) (off : ℕ) :
    pos needle l off
      = (List.range' off l.length).filter (fun i => decide (l[i - off]? = some needle)) := by
  induction l generalizing off with
  | nil => rfl
  | cons a l ih =>
    rw [List.length_cons, List.range'_succ, List.filter_cons]
    have h1 : (List.range' (off + 1) l.length).filter (fun i => decide ((a :: l)[i - off]? = some needle))
        = pos needle l (off + 1) := by
      rw [ih]
      apply List.filter_congr
      intro i hi
      rw [List.mem_range'_1] at hi
      rw [show i - off = (i - (off + 1)) + 1 by omega, List.getElem?_cons_succ]
    rw [h1, show pos needle (a :: l) off = if a = needle then off :: pos needle l (off + 1)
      else pos needle l (off + 1) from rfl]
    by_cases h : a = needle
    · simp [h]
    · simp [h]

theorem pos_drop (needle : α) (hay : List α) (start : ℕ) :
    (indexFrom hay needle start = none → pos needle (hay.drop start) start = []) ∧
    (∀ ix, indexFrom hay needle start = some ix →
      pos needle (hay.drop start) start = ix :: pos needle (hay.drop (ix + 1)) (ix + 1) ∧
        start ≤ ix ∧ ix < hay.length) := by
  have key : ∀ (l : List α) (st : ℕ), hay.drop st = l →
      (indexFrom hay needle st = none → pos needle l st = []) ∧
      (∀ ix, indexFrom hay needle st = some ix →
        pos needle l st = ix :: pos needle (hay.drop (ix + 1)) (ix + 1) ∧
        st ≤ ix ∧ ix < hay.length) := by
    intro l
    induction l with
    | nil =>
      intro st h
      unfold indexFrom
      rw [h]
      simp [pos]
    | cons a l ih =>
      intro st h
      have hd : hay.drop (st + 1) = l := by
        rw [← List.drop_drop, h]; rfl
      have hlen : st < hay.length := by
        by_contra hc
        rw [List.drop_eq_nil_of_le (by omega)] at h
        simp at h
      have ihs := ih (st + 1) hd
      by_cases ha : a = needle
      · have h1 : indexFrom hay needle st = some st := by
          unfold indexFrom; rw [h, List.findIdx?_cons]; simp [ha]
        rw [h1]
        refine ⟨by simp, ?_⟩
        intro ix hix
        cases hix
        refine ⟨?_, le_rfl, hlen⟩
        rw [hd]; simp [pos, ha]
      · have h1 : indexFrom hay needle st = indexFrom hay needle (st + 1) := by
          unfold indexFrom
          rw [h, hd, List.findIdx?_cons]
          simp only [ha, decide_false, Bool.false_eq_true, if_false, Option.map_map]
          congr 1
          funext k; simp only [Function.comp]; omega
        rw [h1]
        have h2 : pos needle (a :: l) st = pos needle l (st + 1) := by simp [pos, ha]
        rw [h2]
        exact ⟨ihs.1, fun ix hix => ⟨((ihs.2 ix hix).1), by have := (ihs.2 ix hix).2; omega,
          (ihs.2 ix hix).2.2⟩⟩
  exact key _ start rfl

theorem lfindGo_eq (hay : List α) (needle : α) (maxiter : Option ℤ) :
    ∀ (fuel : ℕ) (i : ℤ) (start : ℕ), hay.length + 1 ≤ fuel + start → 0 ≤ i →
    lfindGo hay needle maxiter fuel i start
      = match maxiter with
        | none => pos needle (hay.drop start) start
        | some m => (pos needle (hay.drop start) start).take (m - i).toNat := by
  intro fuel
  induction fuel with
  | zero =>
    intro i start h _
    have : hay.drop start = [] := List.drop_eq_nil_of_le (by omega)
    rw [this]
    cases maxiter <;> simp [lfindGo, pos]
  | succ fuel ih =>
    intro i start h hi
    obtain ⟨hn, hs⟩ := pos_drop needle hay start
    unfold lfindGo
    cases hix : indexFrom hay needle start with
    | none =>
      rw [hn hix]
      cases maxiter <;> simp
    | some ix =>
      obtain ⟨e1, e2, e3⟩ := hs ix hix
      rw [e1]
      have ih' := ih (i + 1) (ix + 1) (by omega) (by omega)
      cases maxiter with
      | none => simp only [more, if_true] at ih' ⊢; rw [ih']
      | some m =>
        simp only [more] at ih' ⊢
        by_cases hm : i < m
        · simp only [hm, decide_true, if_true]
          rw [ih', show (m - i).toNat = (m - (i + 1)).toNat + 1 by omega, List.take_succ_cons]
        · simp only [hm, decide_false, Bool.false_eq_true, if_false]
          rw [show (m - i).toNat = 0 by omega]; rfl

end

section
variable {α β : Type*}

theorem place_map (f : α → β) : ∀ (out : List β) (c : List Bool) (xs : List α),
    c.length = xs.length → out.length = xs.length →
    ∃ out', place out c ((extract c xs).map f) = .ok out' ∧ out'.length = xs.length ∧
      ∀ (k : ℕ) x o b, xs[k]? = some x → out[k]? = some o → c[k]? = some b →
        out'[k]? = some (if b then f x else o)
  | [], [], [], _, _ => ⟨[], rfl, rfl, by simp⟩
  | [], _ :: _, _, h1, h2 => by rw [← h2] at h1; simp at h1
  | _ :: _, [], _, h1, h2 => by rw [← h2] at h1; simp at h1
  | o :: os, b :: cs, x :: xs, h1, h2 => by
      obtain ⟨out', e1, e2, e3⟩ := place_map f os cs xs (by simpa using h1) (by simpa using h2)
      cases b
      · refine ⟨o :: out', by simp [extract, place, e1, Except.map], by simp [e2], ?_⟩
        intro k x' o' b' hx ho hb
        rcases k with _ | k
        · simp at hx ho hb; subst hx ho hb; simp
        · simp at hx ho hb; simpa using e3 k x' o' b' hx ho hb
      · refine ⟨f x :: out', by simp [extract, place, e1, Except.map], by simp [e2], ?_⟩
        intro k x' o' b' hx ho hb
        rcases k with _ | k
        · simp at hx ho hb; subst hx ho hb; simp
        · simp at hx ho hb; simpa using e3 k x' o' b' hx ho hb

theorem putmask_spec : ∀ (out : List β) (c : List Bool) (v : β), c.length = out.length →
    (putmask out c v).length = out.length ∧
      ∀ (k : ℕ) o b, out[k]? = some o → c[k]? = some b →
        (putmask out c v)[k]? = some (if b then v else o)
  | [], [], v, _ => ⟨rfl, by simp⟩
  | o :: os, b :: cs, v, h => by
      obtain ⟨e1, e2⟩ := putmask_spec os cs v (by simpa using h)
      refine ⟨by simp [putmask, e1], ?_⟩
      intro k o' b' ho hb
      rcases k with _ | k
      · simp at ho hb; subst ho hb; simp [putmask]
      · simp at ho hb; simpa [putmask] using e2 k o' b' ho hb

/-- Value left at position `k` (point `x`) after the loop: the last entry whose condition holds. -/
def lastVal (k : ℕ) (x : α) : List (List Bool × Fn α β) → β → β
  | [], o => o
  | (c, fn) :: l, o => lastVal k x l (if c[k]? = some true then fn.app x else o)

theorem piecewiseLoop_spec (xs : List α) : ∀ (l : List (List Bool × Fn α β)) (out : List β),
    (∀ p ∈ l, p.1.length = xs.length) → out.length = xs.length →
    ∃ out', piecewiseLoop xs l out = .ok out' ∧ out'.length = xs.length ∧
      ∀ (k : ℕ) x o, xs[k]? = some x → out[k]? = some o → out'[k]? = some (lastVal k x l o)
  | [], out, _, h => ⟨out, rfl, h, fun k x o _ ho => ho⟩
  | (c, fn) :: l, out, hl, h => by
      have hc : c.length = xs.length := hl (c, fn) (by simp)
      have hb : ∀ (k : ℕ) (x : α), xs[k]? = some x → ∃ b, c[k]? = some b := by
        intro k x hx
        have : k < c.length := by rw [hc]; exact (List.getElem?_eq_some_iff.1 hx).1
        exact ⟨c[k], List.getElem?_eq_getElem this⟩
      -- one step
      have step : ∃ out1, out1.length = xs.length ∧
          piecewiseLoop xs ((c, fn) :: l) out = piecewiseLoop xs l out1 ∧
          ∀ (k : ℕ) x o, xs[k]? = some x → out[k]? = some o →
            out1[k]? = some (if c[k]? = some true then fn.app x else o) := by
        by_cases hany : c.any id = true
        · cases fn with
          | call f =>
            obtain ⟨o1, e1, e2, e3⟩ := place_map f out c xs hc h
            refine ⟨o1, e2, by simp only [piecewiseLoop, hany, if_true, e1], ?_⟩
            intro k x o hx ho
            obtain ⟨b, hb⟩ := hb k x hx
            rw [e3 k x o b hx ho hb, hb]
            cases b <;> simp [Fn.app]
          | const v =>
            obtain ⟨e1, e2⟩ := putmask_spec out c v (by rw [hc, h])
            refine ⟨putmask out c v, by rw [e1, h], by simp only [piecewiseLoop, hany, if_true], ?_⟩
            intro k x o hx ho
            obtain ⟨b, hb⟩ := hb k x hx
            rw [e2 k o b ho hb, hb]
            cases b <;> simp [Fn.app]
        · refine ⟨out, h, by simp [piecewiseLoop, hany], ?_⟩
          intro k x o hx ho
          rw [ho, if_neg]
          intro hk
          apply hany
          rw [List.any_eq_true]
          exact ⟨true, List.mem_of_getElem? hk, rfl⟩
      obtain ⟨out1, h1, h2, h3⟩ := step
      obtain ⟨out', g1, g2, g3⟩ := piecewiseLoop_spec xs l out1
        (fun p hp => hl p (List.mem_cons_of_mem _ hp)) h1
      refine ⟨out', by rw [h2, g1], g2, ?_⟩
      intro k x o hx ho
      rw [g3 k x _ hx (h3 k x o hx ho)]
      rfl

theorem lastVal_none (k : ℕ) (x : α) (l : List (List Bool × Fn α β)) (o : β)
    (h : ∀ p ∈ l, p.1[k]? ≠ some true) : lastVal k x l o = o := by
  induction l generalizing o with
  | nil => rfl
  | cons p l ih =>
    obtain ⟨c, fn⟩ := p
    rw [lastVal, if_neg (h (c, fn) (by simp))]
    exact ih o (fun p hp => h p (List.mem_cons_of_mem _ hp))

theorem lastVal_at (k : ℕ) (x : α) (l : List (List Bool × Fn α β)) (o : β) (i : ℕ)
    (c : List Bool) (fn : Fn α β) (hi : l[i]? = some (c, fn)) (hc : c[k]? = some true)
    (h : ∀ (i' : ℕ) p, i < i' → l[i']? = some p → p.1[k]? ≠ some true) :
    lastVal k x l o = fn.app x := by
  induction l generalizing o i with
  | nil => simp at hi
  | cons p l ih =>
    obtain ⟨c', fn'⟩ := p
    rw [lastVal]
    rcases i with _ | i
    · simp only [List.getElem?_cons_zero, Option.some.injEq, Prod.mk.injEq] at hi
      obtain ⟨rfl, rfl⟩ := hi
      rw [if_pos hc]
      apply lastVal_none
      intro p hp
      obtain ⟨j, hj⟩ := List.mem_iff_getElem?.1 hp
      exact h (j + 1) p (by omega) (by simpa using hj)
    · exact ih _ i (by simpa using hi) (fun i' p hii hp => h (i' + 1) p (by omega) (by simpa using hp))

theorem otherwise_spec (c : List Bool) (cs : List (List Bool)) (n : ℕ)
    (h : ∀ d ∈ c :: cs, d.length = n) :
    (otherwise (c :: cs)).length = n ∧
      ∀ k, k < n → ((otherwise (c :: cs))[k]? = some true ↔
        ∀ d ∈ c :: cs, d[k]? = some false) := by
  have key : ∀ (cs : List (List Bool)) (c : List Bool), (∀ d ∈ c :: cs, d.length = n) →
      (cs.foldl (List.zipWith (· || ·)) c).length = n ∧
      ∀ k, k < n → ((cs.foldl (List.zipWith (· || ·)) c)[k]? = some false ↔
        ∀ d ∈ c :: cs, d[k]? = some false) := by
    intro cs
    induction cs with
    | nil => intro c h; exact ⟨h c (by simp), by simp⟩
    | cons d cs ih =>
      intro c h
      have hcl := h c (by simp)
      have hdl := h d (by simp)
      have hz : (List.zipWith (· || ·) c d).length = n := by simp [hcl, hdl]
      obtain ⟨e1, e2⟩ := ih (List.zipWith (· || ·) c d) (by
        intro e he
        rcases List.mem_cons.1 he with rfl | he
        · exact hz
        · exact h e (by simp [he]))
      refine ⟨e1, ?_⟩
      intro k hk
      rw [List.foldl_cons, e2 k hk]
      have hck : c[k]? = some c[k] := List.getElem?_eq_getElem (by omega)
      have hdk : d[k]? = some d[k] := List.getElem?_eq_getElem (by omega)
      have hzk : (List.zipWith (· || ·) c d)[k]? = some (c[k] || d[k]) := by
        rw [List.getElem?_zipWith, hck, hdk]
      constructor
      · intro hh e he
        have h0 := hh _ (List.mem_cons_self ..)
        rw [hzk] at h0
        simp only [Option.some.injEq, Bool.or_eq_false_iff] at h0
        rcases List.mem_cons.1 he with rfl | he
        · rw [hck, h0.1]
        · rcases List.mem_cons.1 he with rfl | he
          · rw [hdk, h0.2]
          · exact hh e (List.mem_cons_of_mem _ he)
      · intro hh e he
        rcases List.mem_cons.1 he with rfl | he
        · have a1 := hh c (by simp)
          have a2 := hh d (by simp)
          rw [hck] at a1
          rw [hdk] at a2
          simp only [Option.some.injEq] at a1 a2
          rw [hzk, a1, a2]; rfl
        · exact hh e (by simp [he])
  obtain ⟨e1, e2⟩ := key cs c h
  refine ⟨by simp [otherwise, e1], ?_⟩
  intro k hk
  rw [← e2 k hk]
  simp only [otherwise, List.getElem?_map, Option.map_eq_some_iff]
  constructor
  · rintro ⟨a, ha, hna⟩
    rw [ha]
    cases a <;> simp_all
  · intro hf
    exact ⟨false, hf, rfl⟩

end

/-! ### Dictionaries -/

section
variable {κ υ : Type*} [DecidableEq κ]

theorem get?_cons (k' : κ) (v : υ) (d : List (κ × υ)) (k : κ) :
    get? ((k', v) :: d) k = if k' = k then some v else get? d k := by
  unfold get?
  rw [List.find?_cons]
  by_cases h : k' = k <;> simp [h]

theorem get?_put (d : List (κ × υ)) (k : κ) (v : υ) (q : κ) :
    get? (put d k v) q = if k = q then some v else get? d q := by
  induction d with
  | nil => simp [put, get?_cons]
  | cons e d ih =>
    obtain ⟨k', v'⟩ := e
    unfold put
    by_cases h : k' = k
    · subst h
      rw [if_pos rfl, get?_cons, get?_cons]
      by_cases hq : k' = q <;> simp [hq]
    · rw [if_neg h, get?_cons, ih, get?_cons]
      by_cases hq : k' = q
      · subst hq
        rw [if_pos rfl, if_neg (fun hh => h hh.symm), if_pos rfl]
      · simp [hq]

theorem put_keys (d : List (κ × υ)) (k : κ) (v : υ) :
    (put d k v).map Prod.fst
      = if k ∈ d.map Prod.fst then d.map Prod.fst else d.map Prod.fst ++ [k] := by
  induction d with
  | nil => simp [put]
  | cons e d ih =>
    obtain ⟨k', v'⟩ := e
    unfold put
    by_cases h : k' = k
    · subst h; simp
    · rw [if_neg h, List.map_cons, ih]
      have hne : k ≠ k' := fun hh => h hh.symm
      by_cases hm : k ∈ d.map Prod.fst
      · simp [hm]
      · simp [hm, hne]

theorem get?_update (e : List (κ × υ)) : ∀ (d : List (κ × υ)), (e.map Prod.fst).Nodup → ∀ q,
    get? (update d e) q = (get? e q).or (get? d q) := by
  induction e with
  | nil => intro d _ q; simp [update, get?]
  | cons kv e ih =>
    intro d hn q
    obtain ⟨k, v⟩ := kv
    rw [List.map_cons, List.nodup_cons] at hn
    have h1 : update d ((k, v) :: e) = update (put d k v) e := rfl
    rw [h1, ih _ hn.2, get?_put, get?_cons]
    by_cases hq : k = q
    · subst hq
      have : get? e k = none := by
        unfold get?
        rw [Option.map_eq_none_iff, List.find?_eq_none]
        intro x hx
        have : x.1 ∈ e.map Prod.fst := List.mem_map_of_mem hx
        simp only [decide_eq_true_eq]
        rintro rfl
        exact hn.1 this
      simp [this]
    · simp [hq]

theorem update_keys (e : List (κ × υ)) : ∀ (d : List (κ × υ)),
    (∀ k ∈ e.map Prod.fst, k ∈ d.map Prod.fst) → (update d e).map Prod.fst = d.map Prod.fst := by
  induction e with
  | nil => intro d _; rfl
  | cons kv e ih =>
    intro d h
    have h1 : update d (kv :: e) = update (put d kv.1 kv.2) e := rfl
    have hk : (put d kv.1 kv.2).map Prod.fst = d.map Prod.fst := by
      rw [put_keys, if_pos (h _ (by simp))]
    rw [h1, ih _ (by rw [hk]; exact fun k hk' => h k (by simp at hk' ⊢; exact Or.inr hk')), hk]

theorem update_nil (e : List (κ × υ)) : ∀ (d : List (κ × υ)),
    (d.map Prod.fst ++ e.map Prod.fst).Nodup → update d e = d ++ e := by
  induction e with
  | nil => intro d _; simp [update]
  | cons kv e ih =>
    intro d h
    have hput : ∀ d : List (κ × υ), kv.1 ∉ d.map Prod.fst → put d kv.1 kv.2 = d ++ [kv] := by
      intro d
      induction d with
      | nil => intro _; rfl
      | cons x d ihd =>
        intro hx
        rw [List.map_cons, List.mem_cons, not_or] at hx
        unfold put
        rw [if_neg (fun hh => hx.1 hh.symm), ihd hx.2]
        rfl
    have h1 : update d (kv :: e) = update (put d kv.1 kv.2) e := rfl
    have hnot : kv.1 ∉ d.map Prod.fst := by
      rw [List.map_cons, List.nodup_append] at h
      intro hm
      exact h.2.2 _ hm kv.1 (by simp) rfl
    rw [h1, hput d hnot, ih _ (by simpa using h)]
    simp

theorem selected_keys_nodup (d : List (κ × υ)) (keys : List κ) (h : keys.Nodup) :
    ((keys.filterMap (fun k => (get? d k).map (fun v => (k, v)))).map Prod.fst).Nodup := by
  have : (keys.filterMap (fun k => (get? d k).map (fun v => (k, v)))).map Prod.fst
      = keys.filter (fun k => (get? d k).isSome) := by
    induction keys with
    | nil => rfl
    | cons k ks ih =>
      rw [List.nodup_cons] at h
      rw [List.filterMap_cons, List.filter_cons]
      cases hk : get? d k with
      | none => simpa using ih h.2
      | some v => simpa using ih h.2
  rw [this]
  exact h.filter _

theorem get?_selected (d : List (κ × υ)) (keys : List κ) (q : κ) :
    get? (keys.filterMap (fun k => (get? d k).map (fun v => (k, v)))) q
      = if q ∈ keys then get? d q else none := by
  induction keys with
  | nil => simp [get?]
  | cons k ks ih =>
    rw [List.filterMap_cons]
    cases hk : get? d k with
    | none =>
      simp only [Option.map_none]
      rw [ih]
      by_cases hq : q = k
      · subst hq; simp [hk]
      · simp [hq]
    | some v =>
      simp only [Option.map_some]
      rw [get?_cons, ih]
      by_cases hq : k = q
      · subst hq; simp [hk]
      · have : q ≠ k := fun hh => hq hh.symm
        simp [hq, this]

theorem subDictSelect_eq (d : List (κ × υ)) (keys : List κ) (h : keys.Nodup) :
    subDictSelect d keys = keys.filterMap (fun k => (get? d k).map (fun v => (k, v))) := by
  unfold subDictSelect
  rw [update_nil _ [] (by simpa using selected_keys_nodup d keys h)]
  rfl

end

end Wafo.Select
