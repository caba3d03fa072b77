import Verif.Props.AnalogBlocks
import Verif.Props.AnalogHam
import Verif.Props.AnalogPattern
import Verif.Props.AnalogRun
import Verif.Props.AnsatzALA
import Verif.Props.AnsatzLayers
import Verif.Props.AnsatzNames
import Verif.Props.ApplyFn
import Verif.Props.Arith
import Verif.Props.Bits
import Verif.Props.Callbacks
import Verif.Props.Checkpoint
import Verif.Props.DAQC
import Verif.Props.DAQCDefects
import Verif.Props.DAQCIndex
import Verif.Props.DAQCMain
import Verif.Props.DAQCRefuse
import Verif.Props.DAQCTransform
import Verif.Props.Dagger
import Verif.Props.Decompose
import Verif.Props.DecomposeCases
import Verif.Props.Density
import Verif.Props.Digitalize
import Verif.Props.Divergence
import Verif.Props.Embedding
import Verif.Props.Equality
import Verif.Props.EqualityCases
import Verif.Props.ExprString
import Verif.Props.FeatureMap
import Verif.Props.FeatureMapGates
import Verif.Props.FeatureMapSplit
import Verif.Props.FiniteDiff
import Verif.Props.FlatParams
import Verif.Props.Flatten
import Verif.Props.GateMatrices
import Verif.Props.Hamiltonian
import Verif.Props.IIA
import Verif.Props.IIANames
import Verif.Props.InfoContent
import Verif.Props.Measure
import Verif.Props.Noise
import Verif.Props.Observable
import Verif.Props.Overlap
import Verif.Props.OverlapBatch
import Verif.Props.PSR
import Verif.Props.PSRCircuit
import Verif.Props.Padding
import Verif.Props.Passes
import Verif.Props.PyqConvert
import Verif.Props.QFT
import Verif.Props.QFTAnalog
import Verif.Props.QubitSupport
import Verif.Props.Readout
import Verif.Props.Reassign
import Verif.Props.ReassignEmbed
import Verif.Props.Register
import Verif.Props.Serialize
import Verif.Props.Shadow
import Verif.Props.ShadowEstimate
import Verif.Props.ShadowRun
import Verif.Props.States
import Verif.Props.StatesNorm
import Verif.Props.Stretch
import Verif.Props.Support
import Verif.Props.Tensor
import Verif.Props.Tomography
import Verif.Props.Training
import Verif.Props.Trotter
import Verif.Props.Unitary
import Verif.Props.ZNE
import Verif.Axioms
import Verif.Props.Cloud
import Verif.Props.Data
import Verif.Props.Pulses
import Verif.Props.QModel
import Verif.Props.QNN
import Verif.Props.PSREngine
import Verif.Props.PulserRun
import Verif.Props.RydbergHEA
import Verif.Props.AnalogSwap
import Verif.Props.RydbergFM
import Verif.Props.Distributed
import Verif.Props.QCNN
import Verif.Props.QCNNNames
import Verif.Props.QNNConfig
import Verif.Props.PyqRun
import Verif.Props.Execution
import Verif.Props.TorchDeriv
