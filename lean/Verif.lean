import Verif.Basic.FMap
import Verif.Model.CRP
import Verif.Props.CRP
import Verif.Props.Domain
import Verif.Props.Math
import Verif.Props.Dist
import Verif.Props.Relation
import Verif.Props.Predictive
import Verif.Props.Emission
import Verif.Props.NoisyRelation
import Verif.Props.Alignment
import Verif.Props.BigramString
import Verif.Props.BigramUndo
import Verif.Props.LatentValue
import Verif.Props.IRM
import Verif.Props.HIRM
import Verif.Props.HIRMMoves
import Verif.Props.HIRMPredictive
import Verif.Props.Sampling
import Verif.Props.Parse
import Verif.Props.CSV
import Verif.Props.UtilIO
import Verif.Props.ObsFile
import Verif.Props.ClusterFile
import Verif.Model.Incorporate
import Verif.Spec.Incorporate
import Verif.Lemmas.Incorporate
import Verif.Lemmas.IncorporateAll
import Verif.Lemmas.IncorporateHosts
import Verif.Props.Incorporate
import Verif.Model.SchemaFile
import Verif.Spec.SchemaFile
import Verif.Lemmas.SchemaFile
import Verif.Props.SchemaFile
import Verif.Model.PCleanIO
import Verif.Spec.PCleanIO
import Verif.Lemmas.PCleanIO
import Verif.Props.PCleanIO
import Verif.Model.GenDBSchema
import Verif.Spec.GenDBSchema
import Verif.Lemmas.GenDBSchema
import Verif.Lemmas.GenDBRefs
import Verif.Props.GenDBSchema
import Verif.Spec.GenDBBuild
import Verif.Lemmas.GenDBBuild
import Verif.Props.GenDBBuild
import Verif.Model.GenDB
import Verif.Spec.GenDB
import Verif.Spec.GenDBRows
import Verif.Lemmas.GenDBEnts
import Verif.Lemmas.GenDBItems
import Verif.Lemmas.GenDBTree
import Verif.Lemmas.GenDBSample
import Verif.Lemmas.GenDBFill
import Verif.Lemmas.GenDBRows
import Verif.Lemmas.GenDBIncorporate
import Verif.Lemmas.HIRMTidy
import Verif.Lemmas.GenDBWired
import Verif.Lemmas.GenDBLoad
import Verif.Lemmas.GenDBSame
import Verif.Props.GenDB
import Verif.Model.GenDBMove
import Verif.Spec.GenDBMove
import Verif.Lemmas.GenDBMoveEnts
import Verif.Lemmas.HIRMSchema
import Verif.Lemmas.GenDBMoved
import Verif.Lemmas.HIRMIndexed
import Verif.Lemmas.HIRMNext
import Verif.Lemmas.GenDBTake
import Verif.Props.GenDBMove
import Verif.Lemmas.GenDBData
import Verif.Lemmas.GenDBHeld
import Verif.Lemmas.GenDBStay
import Verif.Lemmas.GenDBHistory
import Verif.Props.GenDBData
import Verif.Spec.GenDBHistory
import Verif.Props.GenDBHistory
import Verif.Lemmas.GenDBFirm
import Verif.Spec.GenDBClusters
import Verif.Props.GenDBClusters
import Verif.Model.PCleanLib
import Verif.Spec.PCleanLib
import Verif.Lemmas.PCleanLib
import Verif.Props.PCleanLib
import Verif.Model.Priors
import Verif.Spec.Priors
import Verif.Lemmas.Priors
import Verif.Spec.Session
import Verif.Props.Priors
import Verif.Lemmas.Feeds
import Verif.Lemmas.Known
import Verif.Lemmas.KnownLoad
import Verif.Lemmas.IRMSound
import Verif.Lemmas.HIRMSound
import Verif.Lemmas.KnownIRM
import Verif.Model.HirmMain
import Verif.Lemmas.HirmMain
import Verif.Props.HirmMain
import Verif.Spec.HirmMain
import Verif.Lemmas.HirmRun
import Verif.Lemmas.HirmRun2
import Verif.Props.HirmRun
import Verif.Props.IrmMain
import Verif.Props.IrmRun
import Verif.Lemmas.EmissionTotal
import Verif.Model.PCleanMain
import Verif.Spec.PCleanMain
import Verif.Lemmas.GenDBOrigin
import Verif.Lemmas.PCleanMain
import Verif.Props.PCleanMain
import Verif.Spec.Told
import Verif.Lemmas.Named
import Verif.Lemmas.Told
import Verif.Lemmas.ToldHosts
import Verif.Lemmas.Restore
import Verif.Lemmas.RestoreHosts
import Verif.Lemmas.RestoreHirm
import Verif.Lemmas.RestoreMain
import Verif.Lemmas.RestoreRun
import Verif.Props.Restore
import Verif.Lemmas.Approx
import Verif.Props.Approx
import Verif.Spec.Loading
import Verif.Lemmas.LoadReach
import Verif.Lemmas.LoadTotal
import Verif.Lemmas.LoadRun
import Verif.Props.Loading
import Verif.Props.LoadingIrm
import Verif.Spec.Balance
import Verif.Lemmas.Balance
import Verif.Lemmas.Born
import Verif.Props.Balance
import Verif.Lemmas.BalanceOne
import Verif.Props.BalanceFalse
import Verif.Spec.RelMove
import Verif.Lemmas.RelMove
import Verif.Props.RelMove
import Verif.Spec.GenDBConserve
import Verif.Lemmas.GenDBConserve
import Verif.Props.GenDBConserve
import Verif.Lemmas.GenDBSeats
import Verif.Props.GenDBSeats
import Verif.Spec.GenDBLogp
import Verif.Lemmas.GenDBLogp
import Verif.Props.GenDBLogp
import Verif.Spec.GenDBPlaces
import Verif.Props.GenDBPlaces
import Verif.Props.GenDBCandidate
import Verif.Spec.GenDBUpdate
import Verif.Lemmas.GenDBUpdate
import Verif.Props.GenDBUpdate
import Verif.Spec.GenDBWeigh
import Verif.Lemmas.GenDBWeigh
import Verif.Props.GenDBWeigh
import Verif.Model.Choice
import Verif.Spec.Choice
import Verif.Props.Choice
import Verif.Model.HyperMove
import Verif.Spec.HyperMove
import Verif.Props.HyperMove
import Verif.Spec.GenDBChoice
import Verif.Props.GenDBChoice
import Verif.Spec.Values
import Verif.Props.Values
import Verif.Spec.Metropolis
import Verif.Model.SkellamLaw
import Verif.Lemmas.Metropolis
import Verif.Lemmas.Bessel
import Verif.Props.Metropolis
import Verif.Model.SampleLaw
import Verif.Props.SampleLaw
import Verif.Model.NormalLaw
import Verif.Lemmas.StudentT
import Verif.Props.NormalLaw
import Verif.Model.EmissionLaw
import Verif.Spec.EmissionLaw
import Verif.Props.EmissionLaw
import Verif.Model.EmissionHyper
import Verif.Spec.EmissionHyper
import Verif.Props.EmissionHyper
import Verif.Props.HyperSupport
import Verif.Model.BigramLaw
import Verif.Props.BigramLaw
