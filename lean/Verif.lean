import Verif.Py
import Verif.Lemmas.Tab
import Verif.Model.Tau
import Verif.Model.Convert
import Verif.Model.Dev
import Verif.Spec.Tau
import Verif.Lemmas.Tau
import Verif.Spec.Dev
import Verif.Lemmas.Run
import Verif.Lemmas.Adev
import Verif.Props.Adev
import Verif.Lemmas.Mdev
import Verif.Props.Mdev
import Verif.Lemmas.Simple
import Verif.Props.Simple
import Verif.Lemmas.Totdev
import Verif.Props.Totdev
import Verif.Lemmas.Theo1
import Verif.Props.Theo1
import Verif.Lemmas.Mtot
import Verif.Props.Mtot
import Verif.Props.Tau
import Verif.Model.Mtie
import Verif.Model.Nan
import Verif.Lemmas.Mtie
import Verif.Props.Mtie
import Verif.Model.Api
import Verif.Spec.Api
import Verif.Spec.Nan
import Verif.Props.Api
import Verif.Lemmas.Value
import Verif.Lemmas.Invar
import Verif.Lemmas.Reverse
import Verif.Props.Invar
import Verif.Lemmas.Convert
import Verif.Props.Convert
import Verif.Props.Shape
import Verif.Spec.Gradev
import Verif.Model.Ci
import Verif.Model.Gradev
import Verif.Lemmas.Gradev
import Verif.Props.Gradev
import Verif.Props.Gcodev
import Verif.Model.Hat
import Verif.Props.Hat
import Verif.Model.Realtime
import Verif.Lemmas.Realtime
import Verif.Props.Realtime
import Verif.Props.RealtimeFreq
import Verif.Props.RealtimeAuto
import Verif.Model.Dataset
import Verif.Props.Dataset
import Verif.Spec.Chi2
import Verif.Props.Ci
import Verif.Props.Edf
import Verif.Spec.Greenhall
import Verif.Lemmas.Greenhall
import Verif.Props.Greenhall
import Verif.Lemmas.GhPos
import Verif.Props.GhPos
import Verif.Props.Acf
import Verif.Props.NoiseId
import Verif.Props.NoiseIdWrong
import Verif.Props.Bias
import Verif.Model.Mask
import Verif.Props.Mask
import Verif.Model.Kasdin
import Verif.Props.Kasdin
import Verif.Props.KasdinDev
import Verif.Model.Noise
import Verif.Props.Noise
import Verif.Props.TimmerKoenig
import Verif.Props.TauReduction
import Verif.Model.Psd
import Verif.Props.Psd
import Verif.Props.PsdInv
import Verif.Props.PsdRound
import Verif.Lemmas.SinInt
import Verif.Lemmas.PvarInt
import Verif.Props.KasdinInt
import Verif.Lemmas.FlickerPm
import Verif.Lemmas.EulerGamma
import Verif.Props.FlickerPm
import Verif.Model.Psd2allan
import Verif.Props.Psd2allan
import Verif.Props.NumpyPsd
import Verif.Spec.Float
import Verif.Model.Float
import Verif.Lemmas.Float
import Verif.Props.Float
import Verif.Lemmas.FloatErr
import Verif.Props.FloatErr
import Verif.Model.Plot
import Verif.Props.Plot
import Verif.Model.Welch
import Verif.Props.Welch
import Verif.Spec.Stoch
import Verif.Lemmas.Stoch
import Verif.Props.Unbiased
import Verif.Props.UnbiasedFm
import Verif.Props.WhiteMean
import Verif.Props.KasdinMean
import Verif.Props.NoiseMean
import Verif.Props.NoisePsd
import Verif.Props.NoisePsdLow
import Verif.Lemmas.Quartic
import Verif.Lemmas.EdfLin
import Verif.Lemmas.EdfFilter
import Verif.Props.EdfExact
import Verif.Lemmas.QForm
import Verif.Props.Settle
import Verif.Props.TotMean
import Verif.Props.Mixed
import Verif.Props.HatSettle
import Verif.Lemmas.Whp
import Verif.Lemmas.AcfDet
import Verif.Lemmas.LsFit
import Verif.Lemmas.MovForm
import Verif.Lemmas.Ident
import Verif.Props.NoiseIdOk
import Verif.Lemmas.InProb
import Verif.Props.RatioSettle
import Verif.Props.Nan
import Verif.Props.FloatFreq
import Verif.Props.Objects
import Verif.Lemmas.CovLln
import Verif.Lemmas.Flicker
import Verif.Lemmas.FlickerSum
import Verif.Lemmas.OddAsym
import Verif.Props.KasdinSettle
import Verif.Lemmas.FlickerNoisy
import Verif.Props.FlickerId
import Verif.Lemmas.FlickerRatio
import Verif.Lemmas.FlickerSpread
import Verif.Props.FlickerRatio
import Verif.Model.FloatMore
import Verif.Lemmas.FloatMore
import Verif.Props.FloatMore
import Verif.Lemmas.EdfNear
import Verif.Lemmas.EdfMod
import Verif.Props.EdfNear
import Verif.Lemmas.EdfClosed
import Verif.Props.EdfTable
import Verif.Lemmas.EdfTrap
import Verif.Lemmas.EdfCoarse
import Verif.Props.EdfAll
import Verif.Model.RealtimeFloat
import Verif.Lemmas.RealtimeFloat
import Verif.Props.RealtimeFloat
import Verif.Lemmas.EdfWalk
import Verif.Lemmas.EdfWalkNorm
import Verif.Lemmas.EdfWalkNear
import Verif.Props.EdfWalk
import Verif.Lemmas.Chi2Limit
import Verif.Lemmas.Coverage
import Verif.Lemmas.BlockClt
import Verif.Lemmas.CoverageNear
import Verif.Props.Coverage
import Verif.Lemmas.EdfWalkClosed
import Verif.Lemmas.EdfWalkSmooth
import Verif.Props.EdfWalkAll
import Verif.Lemmas.EdfSimple
import Verif.Props.EdfSimple
import Verif.Lemmas.BarSums
import Verif.Lemmas.Bars
import Verif.Props.Bars
import Verif.Spec.FloatRange
import Verif.Lemmas.FloatRange
import Verif.Lemmas.FloatRangeDev
import Verif.Lemmas.FloatRangeRun
import Verif.Props.FloatRange
import Verif.Lemmas.FloatRangeMore
import Verif.Props.FloatRangeMore
import Verif.Lemmas.TotClt
import Verif.Props.TotCover
import Verif.Model.FloatMoreFreq
import Verif.Spec.FloatMoreFreq
import Verif.Props.FloatFreqMore
import Verif.Lemmas.FloatRangeFreq
import Verif.Props.FloatRangeFreq
import Verif.Model.FloatTot
import Verif.Spec.FloatTot
import Verif.Lemmas.FloatTot
import Verif.Props.FloatTot
import Verif.Props.TimmerMean
import Verif.Props.TimmerLimit
import Verif.Props.MtotMean
import Verif.Props.MtotRun
import Verif.Props.TotWalk
import Verif.Props.FloatRangeTot
import Verif.Props.RealtimeRange
import Verif.Props.RealtimeBatchFloat
import Verif.Model.NanMore
import Verif.Spec.NanMore
import Verif.Lemmas.NanMore
import Verif.Props.NanMore
import Verif.Model.RealtimeNan
import Verif.Spec.RealtimeNan
import Verif.Lemmas.RealtimeNan
import Verif.Props.RealtimeNan
import Verif.Model.FloatHat
import Verif.Spec.FloatHat
import Verif.Props.FloatHat
import Verif.Props.FloatGradev
import Verif.Model.NanTwo
import Verif.Spec.NanTwo
import Verif.Props.NanTwo
import Verif.Spec.FloatNarrow
import Verif.Lemmas.FloatRangeNarrow
import Verif.Props.FloatRangeNarrow
import Verif.Props.RealtimeBatchRange
import Verif.Model.RealtimeAutoFloat
import Verif.Spec.RealtimeAutoFloat
import Verif.Lemmas.RealtimeAutoFloat
import Verif.Props.RealtimeAutoFloat
import Verif.Model.MtieMemFloat
import Verif.Props.MtieMemFloat
import Verif.Model.NanMtie
import Verif.Props.NanMtie
import Verif.Props.RealtimeAutoMdev
import Verif.Model.MtieFastFloat
import Verif.Props.MtieFastFloat
import Verif.Model.NanMtieFast
import Verif.Props.NanMtieFast
import Verif.Props.MtieMemRange
import Verif.Props.HatRange
import Verif.Props.GradevRange
import Verif.Model.FloatGradevFreq
import Verif.Props.FloatGradevFreq
import Verif.Spec.FloatScale
import Verif.Props.FloatScale
import Verif.Props.FloatScaleMore
import Verif.Spec.FloatTime
import Verif.Props.FloatTime
import Verif.Props.FloatTimeFreq
import Verif.Props.FloatTimeMore
import Verif.Spec.FloatGradevUnits
import Verif.Props.FloatGradevUnits
import Verif.Props.MtieFastScale
