import Verif.Tree.PropsDiff
import Verif.Tree.PropsDegree
import Verif.Tree.PropsHom
import Verif.Tree.PropsSimplify
import Verif.Tree.PropsOperators
import Verif.Tree.PropsCache
import Verif.Tree.PropsLinear
import Verif.Tree.PropsLinear2
import Verif.SLP.PropsCompile
import Verif.SLP.PropsRuntime
import Verif.System.PropsVars
import Verif.Patch.PropsPatch
import Verif.System.PropsStateNeg
import Verif.System.PropsStateOps
import Verif.System.PropsAlign
import Verif.Start.PropsTotalDegree
import Verif.Start.PropsDegT
import Verif.Start.PropsMHom
import Verif.Start.PropsMHomSystem
import Verif.Track.PropsNewton
import Verif.Track.PropsFixed
import Verif.Track.PropsAMP
import Verif.Predict.PropsRK
import Verif.Predict.PropsOrder
import Verif.Endgame.PropsHermite
import Verif.Endgame.PropsCycle
import Verif.Endgame.PropsPS2
import Verif.Endgame.PropsCauchy
import Verif.Endgame.PropsCauchy2
import Verif.Alg.PropsMidpath
import Verif.Alg.PropsZeroDim
import Verif.Alg.PropsRecorders
import Verif.Alg.PropsExtract
import Verif.Infra.PropsObserver
import Verif.Infra.PropsPool
import Verif.Infra.PropsNum
import Verif.Parse.PropsParse
import Verif.Parse.PropsNumbers
import Verif.Parse.PropsPrint
import Verif.Parse.PropsDeclare
import Verif.Parse.PropsComments
import Verif.Parse.PropsSplit
import Verif.Track.PropsPath
import Verif.Track.PropsJump
import Verif.Tree.PropsForm
import Verif.Track.PropsCounters
import Verif.Track.PropsSteps
import Verif.Track.PropsCost
import Verif.Track.PropsCriteria
import Verif.Track.PropsDigits
import Verif.Track.PropsFail
import Verif.Parse.Config
import Verif.Parse.ConfigSpec
import Verif.Parse.ConfigValues
import Verif.Parse.ConfigProof
import Verif.Parse.PropsConfig
import Verif.Start.PropsIsHom
import Verif.System.PropsMisuse
import Verif.Endgame.PropsZone
import Verif.Tree.PropsTidy
import Verif.Infra.PropsArchive
import Verif.Infra.PropsArchiveStart
import Verif.Track.PropsCoherence
import Verif.Endgame.PropsRefine
import Verif.Alg.PropsBlackbox
import Verif.Tree.PropsPrecision
import Verif.Parse.PropsSysFile
import Verif.Alg.PropsMetadata
import Verif.SLP.Foreign
import Verif.Alg.PropsHomotopyStart
import Verif.System.PropsProject
import Verif.Alg.PropsSetup
import Verif.Alg.PropsSetupMHom
import Verif.System.PropsMove
import Verif.Alg.PropsGamma
import Verif.Alg.PropsSolve
import Verif.Endgame.PropsConverge
import Verif.Alg.PropsEndgame
import Verif.Endgame.PropsCauchyConverge
import Verif.Alg.PropsEndgameC
import Verif.Alg.PropsAllSolutions
import Verif.Alg.PropsGeneric
import Verif.Alg.PropsPerturb
import Verif.Alg.PropsPrecon
import Verif.Infra.PropsRandom
import Verif.Alg.PropsUserHom
import Verif.Alg.PropsWiring
import Verif.Alg.PropsSettings
import Verif.SLP.PropsReuse
import Verif.System.PropsBounds
import Verif.Track.PropsFixedMulti
import Verif.Track.PropsStats
import Verif.Infra.PropsPermute
import Verif.System.PropsDerivMethod
import Verif.Track.PropsTol
import Verif.Alg.PropsReport
import Verif.Tree.PropsFresh
import Verif.Track.PropsEvents
import Verif.Infra.PropsWatch
import Verif.Track.PropsInner
import Verif.Endgame.PropsEvents
import Verif.Patch.PropsEqual
import Verif.Parse.PropsDoubles
import Verif.Tree.PropsLinearPrint
import Verif.SLP.PropsListing
import Verif.Infra.PropsMat
import Verif.System.PropsPrintSys
import Verif.Parse.InputFile
import Verif.Parse.PropsInputFile
import Verif.Alg.MetaEq
import Verif.Alg.PropsMetaEq
import Verif.Infra.Hermitian
import Verif.Infra.PropsHermitian
import Verif.Tree.Share
import Verif.Tree.PropsShare
import Verif.SLP.Implicit
import Verif.SLP.PropsImplicit
