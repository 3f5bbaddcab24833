import Verif.Counts.Props
import Verif.RepCode.Props
import Verif.RepCode.PropsDecoder
import Verif.RepCode.SpecRate
import Verif.RepCode.PropsRate
import Verif.RepCode.PropsDetect
import Verif.RepCode.Weight
import Verif.MeasMit.Props
import Verif.MeasMit.PropsFit
import Verif.MeasMit.PropsSubset
import Verif.MeasMit.PropsFilter
import Verif.MeasMit.LeastSquares
import Verif.MeasMit.SpecLsq
import Verif.MeasMit.LemmasLsq
import Verif.MeasMit.PropsLsq
import Verif.MeasMit.SpecShots
import Verif.MeasMit.PropsShots
import Verif.Accred.Props
import Verif.Accred.PropsFit
import Verif.Accred.PropsSound
import Verif.Accred.PropsSoundDevices
import Verif.Dihedral.Props
import Verif.Dihedral.PropsDecomp
import Verif.Dihedral.PropsRandom
import Verif.Dihedral.PropsTable
import Verif.RB.Props
import Verif.RB.PropsUtils
import Verif.RB.PropsFit
import Verif.RB.PropsErr
import Verif.RB.PropsPurity
import Verif.Expval.Props
import Verif.Expval.PropsAmat
import Verif.Expval.PropsMit
import Verif.Expval.PropsMore
import Verif.Expval.PropsCtmp
import Verif.Expval.PropsWalk
import Verif.Quantum.Born
import Verif.Tomo.Circ
import Verif.Tomo.Fit
import Verif.Tomo.Spec
import Verif.Tomo.PropsCirc
import Verif.Tomo.PropsOps
import Verif.Tomo.PropsPsd
import Verif.Tomo.LemmasSpan
import Verif.Tomo.LemmasData
import Verif.Tomo.PropsWts
import Verif.Tomo.LemmasEigh
import Verif.Tomo.PropsLin
import Verif.Tomo.PropsProc
import Verif.Tomo.PropsCvx
import Verif.Tomo.PropsAdd
import Verif.Tomo.Gst
import Verif.Tomo.PropsGst
import Verif.Tomo.PropsGstCirc
import Verif.Tomo.PropsGstDef
import Verif.Tomo.PropsMle
import Verif.Tomo.PropsMle2
import Verif.Tomo.PropsMleObj
import Verif.Tomo.PropsMleCon
import Verif.Tomo.PropsMleEx
import Verif.QV.Model
import Verif.QV.Spec
import Verif.QV.Lemmas
import Verif.QV.LemmasSv
import Verif.QV.LemmasRun
import Verif.QV.Props
import Verif.QV.PropsAcc
import Verif.QV.PropsCirc
import Verif.Discr.Model
import Verif.Discr.Props
import Verif.Discr.PropsApply
import Verif.Ent.Model
import Verif.Ent.Graph
import Verif.Ent.TierLemmas
import Verif.Ent.PropsTier
import Verif.Ent.Sem
import Verif.Ent.PropsGhz
import Verif.Ent.PropsOsc
import Verif.Ent.Analysis
import Verif.Ent.PropsAnalysis
import Verif.Char.Model
import Verif.Char.ModelReal
import Verif.Char.PropsData
import Verif.Char.Sem
import Verif.Char.Equator
import Verif.Char.PropsCoherence
import Verif.Char.PropsDelay
import Verif.Char.PropsGates
import Verif.Log.Model
import Verif.Log.PropsRead
import Verif.Log.PropsLogger
import Verif.Log.PropsConfig
import Verif.Calib.Iq
import Verif.Calib.PropsIq
import Verif.Calib.PropsGuess
import Verif.Calib.Sched
import Verif.Calib.PropsSched
import Verif.Char.SemDecay
import Verif.Char.PropsDecay
import Verif.RB.SpecNoise
import Verif.RB.LemmasNoise
import Verif.RB.LemmasNoise2
import Verif.RB.LemmasNoise3
import Verif.RB.PropsNoise
import Verif.RB.PropsNoisePurity
import Verif.RB.PropsErrBars
import Verif.RB.PropsPair
import Verif.RB.PropsPurityFit
import Verif.RB.SpecTwirl
import Verif.RB.LemmasTwirl
import Verif.RB.LemmasTwirl2
import Verif.RB.LemmasTwirl3
import Verif.RB.LemmasTwirl4
import Verif.RB.LemmasTwirl5
import Verif.RB.LemmasTwirl6
import Verif.RB.LemmasTwirl7
import Verif.RB.LemmasTwirl8
import Verif.RB.PropsTwirl
import Verif.RB.SpecUnitarity
import Verif.RB.LemmasUnit
import Verif.RB.LemmasUnit2
import Verif.RB.LemmasTens
import Verif.RB.PropsUnitarity
import Verif.RB.PropsPurityShots
import Verif.Tomo.SpecShots
import Verif.Tomo.LemmasDual
import Verif.Tomo.LemmasShots
import Verif.Tomo.LemmasIndep
import Verif.Tomo.PropsShots
import Verif.Tomo.PropsConstrained
import Verif.Tomo.SpecProcShots
import Verif.Tomo.LemmasFrame
import Verif.Tomo.LemmasProcShots
import Verif.Tomo.PropsProcShots
import Verif.QV.SpecStat
import Verif.QV.LemmasStat
import Verif.QV.PropsStat
import Verif.Expval.SpecShots
import Verif.Expval.LemmasShots
import Verif.Expval.PropsShots
import Verif.Expval.PropsCalShots
import Verif.Expval.Fitter
import Verif.Expval.PropsFitter
import Verif.Tomo.GstFit
import Verif.Tomo.SpecGstFit
import Verif.Tomo.PropsGstFit
import Verif.Tomo.PropsGstFitEx
import Verif.Tomo.PropsDispatch
import Verif.Expval.CtmpExpval
import Verif.Expval.SpecCtmpShots
import Verif.Expval.LemmasCtmpShots
import Verif.Expval.PropsCtmpShots
import Verif.RB.PropsRBShots
import Verif.Discr.PropsIq
import Verif.Ent.SpecNoisy
import Verif.Ent.LemmasNoisy
import Verif.Ent.PropsNoisy
import Verif.Ent.PropsGhzShots
import Verif.Tomo.GsObj
import Verif.Tomo.PropsGsObj
import Verif.Ent.Errors
import Verif.Ent.PropsErrors
import Verif.MeasMit.Objects
import Verif.MeasMit.PropsObjects
import Verif.MeasMit.SpecEnd
import Verif.MeasMit.PropsEnd
import Verif.Dihedral.Objects
import Verif.Dihedral.SpecObjects
import Verif.Dihedral.LemmasObjects
import Verif.Dihedral.PropsObjects
import Verif.Tomo.SpecGstShots
import Verif.Tomo.PropsGstShots
import Verif.Log.Rotate
import Verif.Log.SpecRotate
import Verif.Log.LemmasRotate
import Verif.Log.PropsRotate
import Verif.Expval.Objects
import Verif.Expval.SpecObjects
import Verif.Expval.LemmasObjects
import Verif.Expval.PropsObjects
import Verif.Dihedral.Text
import Verif.Dihedral.SpecText
import Verif.Dihedral.LemmasText
import Verif.Dihedral.PropsText
import Verif.Accred.PropsMid
import Verif.QV.PropsNames
import Verif.RepCode.PropsAlgorithm
import Verif.Char.PropsFitted
import Verif.Calib.PropsCalc
import Verif.MeasMit.SpecTensoredEnd
import Verif.MeasMit.PropsTensoredEnd
import Verif.MeasMit.PropsTensoredAccuracy
import Verif.RB.CountGates
import Verif.RB.PropsCountGates
import Verif.RepCode.ErrorGraph
import Verif.RepCode.PropsErrorGraph
import Verif.RepCode.PropsWeightRaises
import Verif.Discr.PropsBase
import Verif.Counts.PropsFull
import Verif.Expval.LemmasRatio
import Verif.Expval.PropsTensoredCal
import Verif.Expval.PropsTensoredEnd
import Verif.Discr.Objects
import Verif.Discr.PropsObjects
import Verif.Char.ZzList
import Verif.Char.PropsZzList
import Verif.Calib.PropsSlots
