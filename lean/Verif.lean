import Verif.Basic
import Verif.Cross.Model
import Verif.Cross.Lemmas
import Verif.Cross.Props
import Verif.Turning.Model
import Verif.Turning.Lemmas
import Verif.Turning.Props
import Verif.Turning.TcProps
import Verif.RfcFilter.Model
import Verif.RfcFilter.Lemmas
import Verif.RfcFilter.Lemmas2
import Verif.RfcFilter.Props
import Verif.RfcCount.Model
import Verif.RfcCount.Lemmas
import Verif.RfcCount.Props
import Verif.Astm.Model
import Verif.Astm.Lemmas
import Verif.Astm.Props
import Verif.Astm.Shape
import Verif.Astm.ShapeProps
import Verif.Cycles.Model
import Verif.Cycles.Lemmas
import Verif.Cycles.Props
import Verif.Cycles.Damage
import Verif.Markov.Model
import Verif.Markov.Props
import Verif.Bits.Props
import Verif.Select.Model
import Verif.Select.Lemmas
import Verif.Select.Props
import Verif.Series.Model
import Verif.Series.Props
import Verif.Geometry.Model
import Verif.Geometry.Props
import Verif.Discretize.Model
import Verif.Discretize.Lemmas
import Verif.Discretize.Props
import Verif.Tran.Model
import Verif.Tran.Lemmas
import Verif.Tran.Props
import Verif.Grid.Model
import Verif.Grid.Lemmas
import Verif.Grid.Lemmas1
import Verif.Grid.Props
import Verif.Grid.LemmasNd
import Verif.Grid.PropsNd
import Verif.Poly.Model
import Verif.Poly.Lemmas
import Verif.Poly.Props
import Verif.Poly.Horner
import Verif.Poly.HornerProps
import Verif.Cheb.Model
import Verif.Cheb.Lemmas
import Verif.Cheb.Props
import Verif.Cheb.Fit
import Verif.Cheb.FitProps
import Verif.Ortho.Model
import Verif.Ortho.Props
import Verif.PP.Model
import Verif.PP.Lemmas
import Verif.PP.Props
import Verif.PP.Integral
import Verif.PP.Extrap
import Verif.Slopes.Model
import Verif.Slopes.Hermite
import Verif.Slopes.Lemmas
import Verif.Slopes.Props
import Verif.Slopes.Mono
import Verif.Slopes.Refute
import Verif.Slopes.Line
import Verif.Stine.Model
import Verif.Stine.Props
import Verif.Savgol.Props
import Verif.Savgol.Piecewise
import Verif.Stats.Props
import Verif.Stats.Edf
import Verif.Trf.Props
import Verif.Trf.Hermite
import Verif.Disp.Props
import Verif.Plot.Props
import Verif.Ship.Props
import Verif.Cheb.FitNdProps
import Verif.Stine.Convex
import Verif.Stine.Deriv
import Verif.Slopes.Units
import Verif.Quad.Props
import Verif.Kde.Props
import Verif.Dct.Props
import Verif.Spec.Swell
import Verif.Spread.Model
import Verif.Spread.Lemmas
import Verif.Spread.Calls
import Verif.Spread.Props
import Verif.Spread.Options
import Verif.Spread.Wrap
import Verif.Spread.Sech
import Verif.Waves.Model
import Verif.Waves.Lemmas
import Verif.Waves.Props
import Verif.Waves.Periods
import Verif.LevelX.Model
import Verif.LevelX.Props
import Verif.LevelX.Extrapolate
import Verif.LevelX.Estimate
import Verif.LevelX.Sim
import Verif.Cov.Fft
import Verif.Cov.Model
import Verif.Cov.Lemmas
import Verif.Cov.Estimate
import Verif.Cov.Missing
import Verif.Cov.SpecModel
import Verif.Cov.SpecLemmas
import Verif.Cov.SpecProps
import Verif.Cov.CovSpec
import Verif.Cov.Sim
import Verif.Cov.SimProps
import Verif.Cov.Cond
import Verif.Cov.CondProps
import Verif.SpecD.Model
import Verif.SpecD.Lemmas
import Verif.SpecD.Props
import Verif.SpecD.Delta
import Verif.SpecD.CharProps
import Verif.SpecD.Sim
import Verif.SpecD.SimProps
import Verif.SpecD.Model2
import Verif.SpecD.Props2
import Verif.SpecD.Resample
import Verif.SpecD.ResampleProps
import Verif.Padua.Model
import Verif.Padua.Lemmas
import Verif.Padua.Eval
import Verif.Padua.Props
import Verif.Osc.Model
import Verif.Osc.Lemmas
import Verif.Osc.Comp
import Verif.Osc.Props
import Verif.Osc.Infinite
import Verif.Osc.Levin
import Verif.Osc.Nodes
import Verif.Theory.Model
import Verif.Theory.Lemmas
import Verif.Theory.Props
import Verif.Theory.Flow
import Verif.Peaks.Model
import Verif.Peaks.Props
import Verif.Thresh.Model
import Verif.Thresh.Props
import Verif.Thresh.Disp
import Verif.Gam.Model
import Verif.Gam.Stirling
import Verif.Gam.Props
import Verif.Fourier.Model
import Verif.Fourier.Props
import Verif.Gauss.Spec
import Verif.Gauss.Lemmas
import Verif.Gauss.Plackett
import Verif.Gauss.Model
import Verif.Gauss.LoMax
import Verif.Gauss.Elem
import Verif.Gauss.Mid
import Verif.Gauss.High
import Verif.Gauss.Cut
import Verif.Gauss.HighErr
import Verif.Gauss.Props
import Verif.Gauss.Rect
import Verif.Gauss.RectProps
import Verif.Gauss.Tables
import Verif.Est.LinkModel
import Verif.Est.LinkProps
import Verif.Est.ProfileModel
import Verif.Est.ProfileProps
import Verif.Est.FitModel
import Verif.Est.FitProps
import Verif.Est.FixedProps
import Verif.Dist.Spec
import Verif.Dist.Lemmas
import Verif.Dist.Model
import Verif.Dist.ExpProps
import Verif.Dist.ExtremeProps
import Verif.Dist.ParetoProps
import Verif.Dist.LogisticProps
import Verif.Dist.CircProps
import Verif.Dist.PieceProps
import Verif.Dist.KappaProps
import Verif.Dist.GammaModel
import Verif.Dist.GammaLemmas
import Verif.Dist.GammaProps
import Verif.Dist.MomSpec
import Verif.Dist.MomLemmas
import Verif.Dist.SampleLemmas
import Verif.Dist.MomModel
import Verif.Dist.MomGammaProps
import Verif.Dist.MomWeibullProps
import Verif.Dist.MomPowProps
import Verif.Dist.MomBddProps
import Verif.Dist.MomTailProps
import Verif.Dist.RvsSpec
import Verif.Dist.RvsModel
import Verif.Dist.RvsLemmas
import Verif.Dist.RvsProps
import Verif.Dist.EntModel
import Verif.Dist.EntLemmas
import Verif.Dist.EntProps
import Verif.Dist.EntProps2
import Verif.Dist.EntProps3
import Verif.Dist.NormModel
import Verif.Dist.NormLemmas
import Verif.Dist.NormProps
import Verif.Dist.NormProps2
import Verif.Dist.NormProps3
import Verif.Dist.NormProps4
import Verif.Dist.NormMomLemmas
import Verif.Dist.NormRvsProps
import Verif.Dist.NormMomProps
import Verif.Dist.NormMomProps2
import Verif.Dist.NormEntProps
import Verif.Dist.LogModel
import Verif.Dist.LogLemmas
import Verif.Dist.LogProps
import Verif.Dist.LogProps2
import Verif.Dist.BetaModel
import Verif.Dist.BetaLemmas
import Verif.Dist.BetaProps
import Verif.Dist.BetaMomProps
import Verif.Dist.BetaMomProps2
import Verif.Dist.TruncModel
import Verif.Dist.TruncProps
import Verif.Dist.TruncMomProps
import Verif.Dist.HistModel
import Verif.Dist.HistProps
import Verif.Dist.WrapModel
import Verif.Dist.WrapProps
import Verif.Dist.TukeyProps
import Verif.Dist.GevModel
import Verif.Dist.GevProps
import Verif.Dist.CrystalModel
import Verif.Dist.CrystalProps
import Verif.Pbinom.Model
import Verif.Pbinom.Spec
import Verif.Pbinom.Props
import Verif.Pbinom.PmfProps
import Verif.Pbinom.StatProps
import Verif.Dist.StartModel
import Verif.Dist.StartLemmas
import Verif.Dist.StartProps
import Verif.Dist.StartGevProps
import Verif.Dist.StartProps2
import Verif.Mctp.Model
import Verif.Mctp.Spec
import Verif.Mctp.Lemmas
import Verif.Mctp.LoopLemmas
import Verif.Mctp.Props
import Verif.Mctp.IterProps
import Verif.Mctp.TcModel
import Verif.Mctp.TcProps
import Verif.Spline.Model
import Verif.Spline.Spec
import Verif.Spline.Lemmas
import Verif.Spline.Calc
import Verif.Spline.CoreLemmas
import Verif.Spline.Props
import Verif.Cheb.Object
import Verif.Cheb.ObjectProps
import Verif.Logit.Model
import Verif.Logit.Spec
import Verif.Logit.Lemmas
import Verif.Logit.Calc
import Verif.Logit.Props
import Verif.Logit.NullProps
import Verif.Logit.StepProps
import Verif.Logit.PredProps
import Verif.Pade.Model
import Verif.Pade.Lemmas
import Verif.Pade.Props
import Verif.Pade.BestProps
import Verif.Tran.General
import Verif.Tran.DataModel
import Verif.Tran.DataProps
import Verif.QLev.Model
import Verif.QLev.Props
import Verif.QLev.LevelProps
import Verif.Disufq.Model
import Verif.Disufq.Lemmas
import Verif.Disufq.Props
import Verif.Disufq.FactorProps
import Verif.Disufq.QtfProps
import Verif.Disufq.StokesProps
import Verif.SimNl.Model
import Verif.SimNl.Props
import Verif.Filters.KalmanModel
import Verif.Filters.KalmanProps
import Verif.Filters.KalmanFirst
import Verif.Filters.HpModel
import Verif.Filters.HpLemmas
import Verif.Filters.HpProps
import Verif.Filters.HampelModel
import Verif.Filters.HampelLemmas
import Verif.Filters.HampelProps
import Verif.Filters.SmoothModel
import Verif.Filters.SmoothLemmas
import Verif.Filters.SmoothProps
import Verif.Filters.SmoothConv
import Verif.Filters.EvarModel
import Verif.Filters.EvarProps
import Verif.Filters.EvarSpline
import Verif.Filters.SgModel
import Verif.Filters.SgProps
import Verif.WaveModels.Props
import Verif.WaveModels.CavProps
