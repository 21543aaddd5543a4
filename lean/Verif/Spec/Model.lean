import Mathlib.Analysis.SpecialFunctions.Gamma.Basic
import Mathlib.MeasureTheory.Integral.IntervalIntegral.Basic
import Verif.Disp.Model

/-!
Model of the frequency spectra of `/repo/src/wafo/spectrum/models.py` (L57-1324).

Numbers are reals, a spectrum is evaluated at one frequency at a time (the code works element by element).  `integrate.quad` is
the exact integral; the minimiser used by `McCormick` and the wave number solver used by `phi1` are parameters.  Warnings are not
modelled.
-/

namespace Wafo.Spec

/-- `_gengamspec(wn, N, M)`, L57-122, for one frequency; `sp.gammaln` is the logarithm of `|Gamma|`. -/
noncomputable def gengam (N M wn : ℝ) : ℝ :=
  if 0 < wn then
    let B := N / M
    let C := (N - 1) / M
    let logwn := Real.log wn
    let logA := C * Real.log B + Real.log M - Real.log (Real.Gamma C)
    Real.exp (logA - N * logwn - B * Real.exp (-M * logwn))
  else 0

/-- `ModelSpectrum.chk_seastate`, L164-177. -/
noncomputable def chkSeastate (Hm0 Tp : ℝ) : Except PyErr Unit :=
  if Hm0 < 0 then .error .valueError else if Tp ≤ 0 then .error .valueError else .ok ()

/-- Members of a `Bretschneider` object. -/
structure Bret where
  Hm0 : ℝ
  Tp : ℝ
  N : ℝ
  M : ℝ

/-- `Bretschneider.__init__`, L244-250. -/
noncomputable def Bret.mk' (Hm0 Tp N M : ℝ) (chk : Bool) : Except PyErr Bret :=
  if chk then
    match chkSeastate Hm0 Tp with
    | .error e => .error e
    | .ok _ => .ok ⟨Hm0, Tp, N, M⟩
  else .ok ⟨Hm0, Tp, N, M⟩

/-- `Bretschneider.__call__`, L252-262. -/
noncomputable def Bret.call (s : Bret) (w : ℝ) : ℝ :=
  if 0 < s.Hm0 then
    let wp := 2 * Real.pi / s.Tp
    (s.Hm0 / 4) ^ 2 / wp * gengam s.N s.M (w / wp)
  else 0

/-- `jonswap_peakfact(Hm0, Tp)`, L265-332, for one pair.  `Tp / sqrt(Hm0)` is infinite for `Hm0 = 0` and `nan` for negative
`Hm0`; both fail the comparison, so that the result stays one. -/
noncomputable def peakfact (Hm0 Tp : ℝ) : ℝ :=
  if 0 < Hm0 then
    let x := Tp / Real.sqrt Hm0
    if x ≤ 5.14285714285714 then
      let D := 0.036 - 0.0056 * x
      min (Real.exp (3.484 * (1 - 0.1975 * D * x ^ 4))) 7
    else 1
  else 1

/-- What `jonswap_seastate` returns. -/
structure Sea where
  Hm0 : ℝ
  Tp : ℝ
  gamma : ℝ
  sigmaA : ℝ
  sigmaB : ℝ
  Ag : ℝ

/-- The parametrisations of `jonswap_seastate`. -/
inductive SeaMethod where
  | hasselman73
  | hasselman76
  | lewis

/-- `jonswap_seastate(u10, fetch, method, g)`, L407-439. -/
noncomputable def seastate (u10 fetch : ℝ) (method : SeaMethod) (g : ℝ) : Sea :=
  let zeta := g * fetch / u10 ^ 2
  let A := match method with
    | .hasselman73 => 0.076 * zeta ^ (-0.22 : ℝ)
    | .hasselman76 => 0.0662 * zeta ^ (-0.2 : ℝ)
    | .lewis => 0.074 * zeta ^ (-0.22 : ℝ)
  let ny := match method with
    | .hasselman73 => 3.5 * zeta ^ (-0.33 : ℝ)
    | .hasselman76 => 2.84 * zeta ^ (-0.3 : ℝ)
    | .lewis => 3.57 * zeta ^ (-0.33 : ℝ)
  let epsilon1 := match method with
    | .hasselman73 => 9.91e-8 * zeta ^ (1.1 : ℝ)
    | .hasselman76 => 1.6e-7 * zeta
    | .lewis => 3.512e-4 * A * ny ^ (-4 : ℝ) * zeta ^ (-0.1 : ℝ)
  let sa := match method with
    | .lewis => 0.05468 * ny ^ (-0.32 : ℝ)
    | _ => 0.07
  let sb := match method with
    | .lewis => 0.078314 * ny ^ (-0.16 : ℝ)
    | _ => 0.09
  let gam := match method with
    | .lewis => max (17.54 * zeta ^ (-0.28384 : ℝ)) 1
    | _ => 3.3
  ⟨4 * Real.sqrt epsilon1 * u10 ^ 2 / g, u10 / (ny * g), gam, sa, sb, A⟩

/-- Ways to compute the normalisation of a `Jonswap` object. -/
inductive Method where
  | integration
  | parametric
  | custom
  deriving DecidableEq

/-- `dict(i=.., p=.., c=..)[self.method[0]]`, L632-634. -/
def methodOf (s : String) : Except PyErr Method :=
  match s.toList with
  | [] => .error .indexError
  | c :: _ =>
    if c = 'i' then .ok .integration
    else if c = 'p' then .ok .parametric
    else if c = 'c' then .ok .custom
    else .error .keyError

/-- Members of a `Jonswap` object. -/
structure Jons where
  Hm0 : ℝ
  Tp : ℝ
  gamma : ℝ
  sigmaA : ℝ
  sigmaB : ℝ
  Ag : ℝ
  N : ℝ
  M : ℝ
  method : Method
  wnc : ℝ

/-- Arguments of `Jonswap`; `gamma = none` is `None` or a number that is not finite. -/
structure JonsArgs where
  Hm0 : ℝ := 7
  Tp : ℝ := 11
  gamma : Option ℝ := none
  sigmaA : ℝ := 0.07
  sigmaB : ℝ := 0.09
  Ag : Option ℝ := none
  N : ℝ := 5
  M : ℝ := 4
  method : String := "integration"
  wnc : ℝ := 6
  chk : Bool := true

/-- `Jonswap.peak_e_factor(wn)`, L637-645. -/
noncomputable def peakE (gamma sigmaA sigmaB wn : ℝ) : ℝ :=
  let w := max wn 0
  let sab := if 1 < w then sigmaB else sigmaA
  let wnm12 := 0.5 * ((w - 1) / sab) ^ 2
  gamma ^ Real.exp (-wnm12)

/-- `Jonswap._localspec(wn)`, L569-571. -/
noncomputable def localspec (gamma sigmaA sigmaB N M wn : ℝ) : ℝ := peakE gamma sigmaA sigmaB wn * gengam N M wn

/-- `Jonswap._parametric_ag`, L581-605 and `_check_parametric_ag`, L573-579.  For negative bases of the powers (far outside the
range of the formula) Python's numbers are complex; not modelled. -/
noncomputable def parametricAg (gamma N M : ℝ) : Except PyErr ℝ :=
  let f1NM := 4.1 * (N - 2 * M ^ (0.28 : ℝ) + 5.3) ^ (-1.45 * M ^ (0.1 : ℝ) + 0.96)
  let f2NM := (2.2 * M ^ (-3.3 : ℝ) + 0.57) * N ^ (-0.58 * M ^ (0.37 : ℝ) + 0.53) - 1.04 * M ^ (-1.9 : ℝ) + 0.94
  if (3 ≤ N ∧ N ≤ 50) ∨ (2 ≤ M ∧ M ≤ 9.5) ∧ (1 ≤ gamma ∧ gamma ≤ 20) then
    .ok ((1 + f1NM * Real.log gamma ^ f2NM) / gamma)
  else .error .valueError

/-- `Jonswap._integrate_ag`, L612-621; `quad` is the exact integral. -/
noncomputable def integrateAg (gamma sigmaA sigmaB N M wnc : ℝ) : Except PyErr ℝ :=
  if wnc < 1 then .error .valueError
  else
    let area1 := ∫ u in (0 : ℝ)..1, localspec gamma sigmaA sigmaB N M u
    let area2 := ∫ u in (1 : ℝ)..wnc, localspec gamma sigmaA sigmaB N M u
    .ok (1 / (area1 + area2))

/-- `Jonswap._custom_ag`, L607-610: `None <= 0` is a TypeError. -/
noncomputable def customAg : Option ℝ → Except PyErr ℝ
  | none => .error .typeError
  | some a => if a ≤ 0 then .error .valueError else .ok a

/-- `Jonswap._pre_calculate_ag`, L623-635: normalisation and the method that was used. -/
noncomputable def preAg (gamma : ℝ) (a : JonsArgs) : Except PyErr (ℝ × Method) :=
  if gamma = 1 then .ok (1, .parametric)
  else
    match a.Ag with
    | some v => (customAg (some v)).map fun r => (r, Method.custom)
    | none =>
      match methodOf a.method with
      | .error e => .error e
      | .ok .integration => (integrateAg gamma a.sigmaA a.sigmaB a.N a.M a.wnc).map fun r => (r, Method.integration)
      | .ok .parametric => (parametricAg gamma a.N a.M).map fun r => (r, Method.parametric)
      | .ok .custom => (customAg none).map fun r => (r, Method.custom)

/-- The peakedness used by `Jonswap.__init__`, L542-543. -/
noncomputable def jonsGamma (a : JonsArgs) : ℝ :=
  match a.gamma with
  | none => peakfact a.Hm0 a.Tp
  | some g => if g < 1 then peakfact a.Hm0 a.Tp else g

/-- `Jonswap.__init__`, L529-548. -/
noncomputable def Jons.mk' (a : JonsArgs) : Except PyErr Jons :=
  match preAg (jonsGamma a) a with
  | .error e => .error e
  | .ok (ag, m) =>
    let s : Jons := ⟨a.Hm0, a.Tp, jonsGamma a, a.sigmaA, a.sigmaB, ag, a.N, a.M, m, a.wnc⟩
    if a.chk then
      match chkSeastate a.Hm0 a.Tp with
      | .error e => .error e
      | .ok _ => .ok s
    else .ok s

/-- `Jonswap.__call__`, L647-663. -/
noncomputable def Jons.call (s : Jons) (w : ℝ) : ℝ :=
  if 0 < s.Hm0 then
    let wp := 2 * Real.pi / s.Tp
    let wn := w / wp
    ((s.Hm0 / 4) ^ 2 / wp * s.Ag) * peakE s.gamma s.sigmaA s.sigmaB wn * gengam s.N s.M wn
  else 0

/-- Solver for the dispersion relation: wave number for frequency, depth and gravity; stands for `w2k(w, 0, h, g=g)[0]`. -/
abbrev Solver := ℝ → Disp.Depth → ℝ → ℝ

/-- `phi1(wi, h, g)`, L666-711, for one frequency. -/
noncomputable def phi1 (w2k : Solver) (w : ℝ) (h : Disp.Depth) (g : ℝ) : ℝ :=
  match h with
  | none => 1
  | some d =>
    let k1 := w2k w none g
    let dw1 := 2 * w / g
    let k2 := w2k w (some d) g
    let k2h := k2 * d
    let den := if k1 = 0 then 1 else Real.tanh k2h + k2h / Real.cosh k2h ^ 2
    let dw2 := if k1 = 0 then 0 else dw1 / den
    if k1 = 0 then 0 else (k1 / k2) ^ 3 * dw2 / dw1

/-- Members of a `Tmaspec` object. -/
structure Tma where
  jons : Jons
  h : Disp.Depth
  g : ℝ

/-- `Tmaspec.__call__(w, h, g)` with `phi`, L802-811. -/
noncomputable def Tma.call (w2k : Solver) (s : Tma) (w : ℝ) (h : Option Disp.Depth) (g : Option ℝ) : ℝ :=
  s.jons.call w * phi1 w2k w (h.getD s.h) (g.getD s.g)

/-- Members of a `Torsethaugen` object. -/
structure Tors where
  wind : Jons
  swell : Jons

/-- `Torsethaugen._init_spec`, L926-1054.  Python raises ZeroDivisionError for `Hm0 = 0`, L1009: `Hm0/Tf**2` is `0/0` in Python
floats (when `Tp >= Tf = 0`).  The zero denominators `Tf = Tl` and `Tf = Tu` of L972-973, `Hm0` above 50 m, are not modelled: they
give infinite or undefined numbers.  `tinf` stands for the infinite period given to a wind sea without energy. -/
noncomputable def torsInit (Hm0 Tp : ℝ) (method : String) (g tinf : ℝ) : Except PyErr Tors :=
  let Tf := 6.6 * Hm0 ^ (1 / 3 : ℝ)
  let Tl := 2 * Real.sqrt Hm0
  let Tu := 25
  let El := min (max ((Tf - Tp) / (Tf - Tl)) 0) 1
  let Eu := min (max ((Tp - Tf) / (Tu - Tf)) 0) 1
  if Tp < Tf then
    let Nw := 0.5 * Real.sqrt Hm0 + 3.2
    let Mw := 4
    let Rpw := min ((1 - 0.7) * Real.exp (-(El / 0.5) ^ 2) + 0.7) 1
    let Hpw := Rpw * Hm0
    let Tpw := Tp
    let gammaw := 35 * (1 + 3.5 * Real.exp (-Hm0 / 1)) * (2 * Real.pi / g * Rpw * Hm0 / Tp ^ 2) ^ (0.857 : ℝ)
    let gammaw := max gammaw 1
    let Ns := Nw
    let Ms := Mw
    let Rps := Real.sqrt (1 - Rpw ^ 2)
    let Hps := Rps * Hm0
    let Tps := Tf + 2
    match Jons.mk' { Hm0 := Hpw, Tp := Tpw, gamma := some gammaw, N := Nw, M := Mw, method := method, chk := false },
      Jons.mk' { Hm0 := Hps, Tp := Tps, gamma := some 1, N := Ns, M := Ms, method := method, chk := false } with
    | .ok a, .ok b => .ok ⟨a, b⟩
    | .error e, _ => .error e
    | _, .error e => .error e
  else if Hm0 = 0 then .error .zeroDivision
  else
    let Ns := 0.5 * Real.sqrt Hm0 + 3.2
    let Ms := 4
    let Rps := min ((1 - 0.6) * Real.exp (-(Eu / 0.3) ^ 2) + 0.6) 1
    let Hps := Rps * Hm0
    let Tps := Tp
    let gammas := 35 * (1 + 3.5 * Real.exp (-Hm0 / 1)) * (2 * Real.pi / g * Hm0 / Tf ^ 2) ^ (0.857 : ℝ) * (1 + 6 * Eu)
    let gammas := max gammas 1
    let Nw := Ns
    let Mw := 4 * (1 - 0.7 * Real.exp (-Hm0 / 3))
    let Rpw := Real.sqrt (1 - Rps ^ 2)
    let Hpw := Rpw * Hm0
    let C := (Nw - 1) / Mw
    let B := Nw / Mw
    let G0w := B ^ C * Mw / Real.Gamma C
    let Tpw := if 0 < Hpw then
        (16 * 0.08 * (1 - Real.exp (-Hm0 / 3)) * (0.4 : ℝ) ^ Nw / (G0w * Hpw ^ 2)) ^ (-1 / (Nw - 1))
      else tinf
    match Jons.mk' { Hm0 := Hpw, Tp := Tpw, gamma := some 1, N := Nw, M := Mw, method := method, chk := false },
      Jons.mk' { Hm0 := Hps, Tp := Tps, gamma := some gammas, N := Ns, M := Ms, method := method, chk := false } with
    | .ok a, .ok b => .ok ⟨a, b⟩
    | .error e, _ => .error e
    | _, .error e => .error e

/-- `Torsethaugen.__init__(Hm0, Tp, method, wnc, gravity, chk_seastate)`, L894-906: the member `wnc` is not used any further. -/
noncomputable def Tors.mk' (Hm0 Tp : ℝ) (method : String) (_wnc : ℝ) (gravity : ℝ) (chk : Bool) (tinf : ℝ) : Except PyErr Tors :=
  if chk then
    match chkSeastate Hm0 Tp with
    | .error e => .error e
    | .ok _ => torsInit Hm0 Tp method gravity tinf
  else torsInit Hm0 Tp method gravity tinf

/-- `Torsethaugen.__call__`, L908-911. -/
noncomputable def Tors.call (s : Tors) (w : ℝ) : ℝ := s.wind.call w + s.swell.call w

/-- `McCormick.__init__`, L1108-1117.  `opt r` is the result of `fminbound` for `Tp/Tz = r`.  `None + 1.0` is a TypeError. -/
noncomputable def mcCormick (opt : ℝ → ℝ) (Hm0 Tp : ℝ) (Tz M : Option ℝ) (chk : Bool) : Except PyErr Bret :=
  let tz := Tz.getD (0.8143 * Tp)
  match M with
  | some m => Bret.mk' Hm0 Tp (m + 1) m chk
  | none =>
    if 0 < Hm0 then
      if tz = 0 then .error .zeroDivision
      else
        let m := 1 / opt (Tp / tz)
        Bret.mk' Hm0 Tp (m + 1) m chk
    else .error .typeError

/-- The function minimised by `McCormick`, L1119-1122. -/
noncomputable def mcOpt (r x : ℝ) : ℝ := ((1 + x) ^ x / Real.Gamma (1 + x) - r) ^ 2

/-- Parameters of `OchiHubble`, L1197-1240: `hp`, `wa`, `wb`, `Lpar`. -/
def ochiPar : List ((ℚ × ℚ) × (ℚ × ℚ) × (ℚ × ℚ) × (ℚ × ℚ × ℚ)) :=
  [((84/100, 54/100), (70/100, 115/100), (46/1000, 39/1000), (300/100, 154/100, -62/1000)),
   ((84/100, 54/100), (93/100, 150/100), (56/1000, 46/1000), (300/100, 277/100, -112/1000)),
   ((84/100, 54/100), (41/100, 88/100), (16/1000, 26/1000), (255/100, 182/100, -89/1000)),
   ((84/100, 54/100), (74/100, 130/100), (52/1000, 39/1000), (265/100, 390/100, -85/1000)),
   ((84/100, 54/100), (62/100, 103/100), (39/1000, 30/1000), (260/100, 53/100, -69/1000)),
   ((95/100, 31/100), (70/100, 150/100), (46/1000, 46/1000), (135/100, 248/100, -102/1000)),
   ((65/100, 76/100), (61/100, 94/100), (39/1000, 36/1000), (495/100, 248/100, -102/1000)),
   ((90/100, 44/100), (81/100, 160/100), (52/1000, 33/1000), (180/100, 295/100, -105/1000)),
   ((77/100, 64/100), (54/100, 61/100), (39/1000, 0), (450/100, 195/100, -82/1000)),
   ((73/100, 68/100), (70/100, 99/100), (46/1000, 39/1000), (640/100, 178/100, -69/1000)),
   ((92/100, 39/100), (70/100, 137/100), (46/1000, 39/1000), (70/100, 178/100, -69/1000))]

/-- `OchiHubble._init_spec`, L1195-1251: swell and wind part.  Negative `par` counts from the end. -/
noncomputable def ochiInit (Hm0 : ℝ) (par : ℤ) : Except PyErr (Bret × Bret) :=
  let j : ℤ := if par < 0 then par + 11 else par
  if j < 0 then .error .indexError
  else
    match ochiPar[j.toNat]? with
    | none => .error .indexError
    | some (hp, wa, wb, l) =>
      let l0 : ℝ := l.1
      let l1 : ℝ := l.2.1 * Real.exp (l.2.2 * Hm0)
      let t0 : ℝ := 2 * Real.pi * Real.exp (wb.1 * Hm0) / wa.1
      let t1 : ℝ := 2 * Real.pi * Real.exp (wb.2 * Hm0) / wa.2
      match Bret.mk' (hp.1 * Hm0) t0 (4 * l0 + 1) 4 true, Bret.mk' (hp.2 * Hm0) t1 (4 * l1 + 1) 4 true with
      | .ok a, .ok b => .ok (a, b)
      | .error e, _ => .error e
      | _, .error e => .error e

/-- `OchiHubble.__init__(Hm0, par, chk_seastate)`, L1181-1190, `_chk_extra_param`, L1253-1255; `Tp` is one. -/
noncomputable def ochiHubble (Hm0 : ℝ) (par : ℤ) (chk : Bool) : Except PyErr (Bret × Bret) :=
  if chk then
    match chkSeastate Hm0 1 with
    | .error e => .error e
    | .ok _ => if par < 0 ∨ 10 < par then .error .valueError else ochiInit Hm0 par
  else ochiInit Hm0 par

/-- `OchiHubble.__call__`, L1192-1193, of swell and wind part. -/
noncomputable def ochiCall (s : Bret × Bret) (w : ℝ) : ℝ := s.2.call w + s.1.call w

/-- `Wallop.__init__`, L1316-1324.  For `Hm0 = 0` the exponent is infinite but not used; not modelled.  `kp` is the deep water
wave number with `g = 9.81`. -/
noncomputable def wallop (Hm0 Tp : ℝ) (N : Option ℝ) (chk : Bool) : Except PyErr Bret :=
  let n := match N with
    | some n => n
    | none =>
      let wp := 2 * Real.pi / Tp
      let kp := Disp.deepK 9.81 wp
      let Lp := 2 * Real.pi / kp
      |(Real.log (2 * Real.pi ^ 2) + 2 * Real.log (Hm0 / 4) - 2 * Real.log Lp) / Real.log 2|
  Bret.mk' Hm0 Tp n 4 chk

end Wafo.Spec
