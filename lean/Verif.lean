import Verif.Color.ComplexMem
import Verif.Color.HeatBath
import Verif.Color.PropsComplexMem
import Verif.Color.PropsHeatBath
import Verif.Color.PropsHeatBath2
import Verif.Color.PropsSu3Exp
import Verif.Color.PropsSu3Fun
import Verif.Color.PropsSu3Iter
import Verif.Color.PropsSu3Mem
import Verif.Color.PropsSu3Mem2
import Verif.Color.PropsSu3Mem3
import Verif.Color.PropsSu3Ortho
import Verif.Color.PropsSu3Polar
import Verif.Color.PropsSu3Sub
import Verif.Color.PropsSu3Vec
import Verif.Color.Su3Fun
import Verif.Color.Su3Mem
import Verif.Comm.AllToAll
import Verif.Comm.AllToAllCases
import Verif.Comm.AllToAllLemmas
import Verif.Comm.Layouts
import Verif.Comm.LayoutsCases
import Verif.Comm.PropsAllToAll
import Verif.Comm.PropsAllToAll2
import Verif.Comm.PropsLayouts
import Verif.Comm.Remap
import Verif.Cpn.Model
import Verif.Cpn.PropsCpn
import Verif.Dirac.CgFields
import Verif.Dirac.Clover
import Verif.Dirac.EoPrec
import Verif.Dirac.EoPrecCg
import Verif.Dirac.InvClover
import Verif.Dirac.Inverters
import Verif.Dirac.PropsClover
import Verif.Dirac.PropsEoPrec
import Verif.Dirac.PropsEoPrec2
import Verif.Dirac.PropsEoPrecCg
import Verif.Dirac.PropsWilson
import Verif.Dirac.PropsWilson2
import Verif.Dirac.StD
import Verif.Dirac.Wilson
import Verif.Field.HaloState
import Verif.Field.Layout
import Verif.Field.Reduce
import Verif.Floats.Float128
import Verif.Floats.Format
import Verif.Floats.PropsExact
import Verif.Floats.PropsProd
import Verif.Floats.PropsReduce
import Verif.Floats.PropsSum
import Verif.Floats.Reduce
import Verif.FreeTheory.Photon
import Verif.FreeTheory.PropsPhoton
import Verif.FreeTheory.PropsPhoton2
import Verif.FreeTheory.PropsPhoton3
import Verif.FreeTheory.PropsPhoton4
import Verif.FreeTheory.PropsPhoton5
import Verif.FreeTheory.PropsPhoton6
import Verif.FreeTheory.PropsPhoton7
import Verif.FreeTheory.PropsQuark
import Verif.FreeTheory.PropsQuark2
import Verif.FreeTheory.PropsQuark3
import Verif.FreeTheory.PropsQuark4
import Verif.FreeTheory.Quark
import Verif.Generate.PropsRun1
import Verif.Generate.PropsRun2
import Verif.Generate.PropsRun3
import Verif.Generate.PropsRun4
import Verif.Generate.PropsRun5
import Verif.Generate.PropsRun6
import Verif.Generate.PropsRun7
import Verif.Generate.PropsRun8
import Verif.Generate.PropsRun9
import Verif.Generate.Run
import Verif.Geometry.EvenOdd
import Verif.Geometry.EvenOddLemmas
import Verif.Geometry.Grid
import Verif.Geometry.Halo
import Verif.Geometry.HaloExch
import Verif.Geometry.HaloLemmas
import Verif.Geometry.Index
import Verif.Geometry.Lemmas
import Verif.Geometry.MixRadix
import Verif.Geometry.Model
import Verif.Geometry.NeighLemmas
import Verif.Geometry.PropsEo
import Verif.Geometry.PropsGrid
import Verif.Geometry.PropsHalo
import Verif.Geometry.PropsLx
import Verif.Geometry.Spec
import Verif.Geometry.SumSites
import Verif.Geometry.TableLemmas
import Verif.Geometry.Tables
import Verif.Hmc.Backfield
import Verif.Hmc.EoSum
import Verif.Hmc.GaugeForce
import Verif.Hmc.Omelyan
import Verif.Hmc.PathCalc
import Verif.Hmc.PropsBackfield
import Verif.Hmc.PropsBackfield2
import Verif.Hmc.PropsGaugeAction
import Verif.Hmc.PropsGaugeForce
import Verif.Hmc.PropsGaugeForce2
import Verif.Hmc.PropsGaugeForce3
import Verif.Hmc.PropsOmelyan
import Verif.Hmc.PropsOmelyan2
import Verif.Hmc.PropsQuark
import Verif.Hmc.PropsQuark2
import Verif.Hmc.PropsRhmc
import Verif.Hmc.PropsRhmc2
import Verif.Hmc.PropsRhmc3
import Verif.Hmc.PropsRhmc4
import Verif.Hmc.PropsRhmc5
import Verif.Hmc.PropsRhmc6
import Verif.Hmc.PropsRhmc7
import Verif.Hmc.PropsRhmcEx
import Verif.Hmc.QuarkCalc
import Verif.Hmc.QuarkEnergy
import Verif.Hmc.QuarkForce
import Verif.Hmc.QuarkGrad
import Verif.Hmc.QuarkSpec
import Verif.Hmc.Rhmc
import Verif.Ib.Contr
import Verif.Ib.Hit
import Verif.Ib.Lock
import Verif.Ib.MomFilter
import Verif.Ib.PropsContr1
import Verif.Ib.PropsContr2
import Verif.Ib.PropsContr3
import Verif.Ib.PropsContr4
import Verif.Ib.PropsContr5
import Verif.Ib.PropsContr6
import Verif.Ib.PropsHit1
import Verif.Ib.PropsHit2
import Verif.Ib.PropsHit3
import Verif.Ib.PropsHit4
import Verif.Ib.PropsHit5
import Verif.Ib.PropsHit6
import Verif.Ib.PropsHit7
import Verif.Ib.PropsLock
import Verif.Ib.PropsMomFilter
import Verif.Ib.PropsResume1
import Verif.Ib.PropsResume2
import Verif.Ib.PropsResume3
import Verif.Ib.PropsResume4
import Verif.Ib.PropsSource1
import Verif.Ib.PropsSource2
import Verif.Ib.PropsSource3
import Verif.Ib.PropsSource4
import Verif.Ib.PropsSource5
import Verif.Ib.PropsSource6
import Verif.Ib.PropsVertex1
import Verif.Ib.PropsVertex2
import Verif.Ib.PropsVertex3
import Verif.Ib.PropsVertexEx
import Verif.Ib.Resume
import Verif.Ib.Source
import Verif.Ib.Vertex
import Verif.Input.PropsFrame
import Verif.Input.PropsOrder
import Verif.Input.PropsScan1
import Verif.Input.PropsScan2
import Verif.Input.PropsScan3
import Verif.Input.PropsScan4
import Verif.Input.PropsScan5
import Verif.Input.PropsScan6
import Verif.Input.PropsScan7
import Verif.Input.PropsScan8
import Verif.Input.PropsScan9
import Verif.Input.PropsScanEx
import Verif.Input.Scan
import Verif.Inverters.Cg
import Verif.Inverters.Cgm
import Verif.Inverters.PropsCg
import Verif.Inverters.PropsCgm
import Verif.Io.Checksum
import Verif.Io.Endian
import Verif.Io.FieldIo
import Verif.Io.FieldIoLemmas
import Verif.Io.Ildg
import Verif.Io.Input
import Verif.Io.PropsChecksum
import Verif.Io.PropsFieldIo
import Verif.Io.PropsIldg
import Verif.Io.PropsInput
import Verif.Io.PropsInput2
import Verif.Io.PropsReadIldg
import Verif.Io.ReadIldg
import Verif.Io.Text
import Verif.Measures.PropsMeson
import Verif.Measures.PropsStag
import Verif.Measures.PropsStag2
import Verif.Measures.PropsStag3
import Verif.Measures.PropsStagCorr
import Verif.Measures.PropsStagCorr2
import Verif.Measures.PropsTopology
import Verif.Measures.PropsTopology2
import Verif.Measures.SpinTaste
import Verif.Measures.Stag
import Verif.Measures.StagCorr
import Verif.Measures.Topology
import Verif.Memory.Manager
import Verif.Memory.ManagerLemmas
import Verif.Memory.PropsManager
import Verif.Memory.Vectors
import Verif.NewTypes.Metadynamics
import Verif.Nice.PropsScript1
import Verif.Nice.PropsScript10
import Verif.Nice.PropsScript2
import Verif.Nice.PropsScript3
import Verif.Nice.PropsScript4
import Verif.Nice.PropsScript5
import Verif.Nice.PropsScript6
import Verif.Nice.PropsScript7
import Verif.Nice.PropsScript8
import Verif.Nice.PropsScript9
import Verif.Nice.Script
import Verif.Operations.Fft
import Verif.Operations.GaugeConf
import Verif.Operations.GaugeFix
import Verif.Operations.PropsFft
import Verif.Operations.PropsFft2
import Verif.Operations.PropsGaugeFix
import Verif.Operations.PropsGaugeFix2
import Verif.Operations.PropsGaugeFix3
import Verif.Operations.PropsGaugeFix4
import Verif.Operations.PropsGaugeFix5
import Verif.Operations.PropsSymmetrize
import Verif.Operations.Symmetrize
import Verif.Quda.Blocks
import Verif.Quda.Layout
import Verif.Quda.MgPars
import Verif.Quda.PropsLayout1
import Verif.Quda.PropsLayout2
import Verif.Quda.PropsMgPars
import Verif.Quda.PropsSolve1
import Verif.Quda.PropsSolve2
import Verif.Quda.Solve
import Verif.Random.Gauss
import Verif.Random.GenText
import Verif.Random.Hot
import Verif.Random.PropsBoxMuller
import Verif.Random.PropsGauss
import Verif.Random.PropsGauss2
import Verif.Random.PropsGauss3
import Verif.Random.PropsGauss4
import Verif.Random.PropsRan2
import Verif.Random.PropsSitmo
import Verif.Random.PropsSources
import Verif.Random.PropsSources2
import Verif.Random.Ran2
import Verif.Random.Sitmo
import Verif.Random.Sources
import Verif.Rational.Expansions
import Verif.Rational.Finder
import Verif.Rational.HighPrec
import Verif.Rational.PropsExpansions
import Verif.Rational.PropsFinder
import Verif.Rational.PropsFractions
import Verif.Rational.PropsLu
import Verif.Rational.PropsNewton
import Verif.Rational.PropsRoots
import Verif.Rational.Remez
import Verif.Routines.Determinant
import Verif.Routines.Integers
import Verif.Smearing.Gaussian
import Verif.Smearing.Hex
import Verif.Smearing.LinkSmear
import Verif.Smearing.PropsGaussian
import Verif.Smearing.PropsGaussian2
import Verif.Smearing.PropsHex
import Verif.Smearing.PropsLinkSmear
import Verif.Smearing.PropsShift
import Verif.Smearing.PropsStout
import Verif.Smearing.RecursiveFlow
import Verif.Spin.Gamma
import Verif.Spin.PropsGamma
import Verif.Spin.PropsGamma2
import Verif.Stencil.Lattice
import Verif.Stencil.Paths
import Verif.Stencil.Plaquette
import Verif.Stencil.PropsPaths
import Verif.Stencil.PropsStaples
import Verif.Stencil.PropsStaples2
import Verif.Stencil.PropsSweeper
import Verif.Stencil.PropsSweeper2
import Verif.Stencil.Staples
import Verif.Stencil.Stencil
import Verif.Stencil.Sweeper
import Verif.Tools.Ave
import Verif.Tools.Cluster
import Verif.Tools.Cluster2
import Verif.Tools.CreateU1
import Verif.Tools.FindPart
import Verif.Tools.IldgToEo
import Verif.Tools.Landau
import Verif.Tools.PropsAve
import Verif.Tools.PropsCluster
import Verif.Tools.PropsCluster2
import Verif.Tools.PropsCreateU1
import Verif.Tools.PropsFindPart1
import Verif.Tools.PropsFindPart2
import Verif.Tools.PropsFindPart3
import Verif.Tools.PropsFindPart4
import Verif.Tools.PropsFindPart5
import Verif.Tools.PropsIldgToEo
import Verif.Tools.PropsLandau
import Verif.Tune.PropsTuner1
import Verif.Tune.PropsTuner2
import Verif.Tune.PropsTuner3
import Verif.Tune.PropsTuner4
import Verif.Tune.Tuner
