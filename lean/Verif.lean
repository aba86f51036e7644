import Verif.Harvest.WitnessReap
import Verif.Harvest.PropsPlant
import Verif.Harvest.PropsRound
import Verif.Harvest.PropsMixed
import Verif.Harvest.PropsTags
import Verif.Harvest.PropsTagsPlant
import Verif.Harvest.PropsNest
import Verif.Harvest.WitnessPlant
import Verif.Harvest.WitnessFilter
import Verif.Ppl.Witness
import Verif.Ppl.OtherKey
import Verif.State.Witness
import Verif.State.Stmt
import Verif.State.StmtLemmas
import Verif.State.StmtRun
import Verif.State.StmtProps
import Verif.State.LayerStmt
import Verif.State.LayerProps
import Verif.State.FnSpec
import Verif.Propagate.Witness
import Verif.Inverse.SliceProps
import Verif.Inverse.Ildj
import Verif.LogProb.Batched
import Verif.LogProb.BatchedProps
import Verif.LogProb.Chain
import Verif.Effect.Props
import Verif.Matching.Witness
import Verif.Matching.Strings
import Verif.Matching.RulesProps
import Verif.Matching.JaxProps
import Verif.Autoconj.CanonTotal
import Verif.Mcmc.Props
import Verif.Mcmc.Stateful
import Verif.Mcmc.Keyed
import Verif.Mcmc.KeyedSpec
import Verif.Mcmc.KeyedLemmas
import Verif.Mcmc.KeyedProps
import Verif.Optix.Props
import Verif.NN.Serial
import Verif.NN.Dropout
import Verif.NN.Pool
import Verif.NN.BatchNorm
import Verif.NN.Flatten
import Verif.Util.Kwargs
import Verif.Util.Context
import Verif.Util.Tie
import Verif.Util.BindProps
import Verif.Util.BindTrans
import Verif.LogProb.NestedSkip
import Verif.LogProb.NestedIldj
import Verif.Harvest.Summary
import Verif.Harvest.PropsPlantStrict
import Verif.Harvest.PropsPlantExact
import Verif.Effect.Closed
import Verif.Matching.Order
import Verif.Optix.Named
import Verif.NN.Entries
import Verif.NN.Fresh
import Verif.NN.Deconv
import Verif.Inverse.Custom
import Verif.Inverse.CustomProps
import Verif.Inverse.CustomChain
import Verif.Inverse.CustomSingle
import Verif.Inverse.CustomTheorems
import Verif.Inverse.Bijector
import Verif.Inverse.BijectorProps
import Verif.Harvest.Lift
import Verif.Harvest.LiftProps
import Verif.Harvest.LiftComm
import Verif.Harvest.LiftSpec
import Verif.Harvest.Vmap
import Verif.Harvest.VmapLemmas
import Verif.Harvest.VmapTrace
import Verif.Harvest.VmapProps
import Verif.Harvest.VmapPlant
import Verif.Harvest.CondVmap
import Verif.Harvest.CondVmapProps
import Verif.Harvest.Outer
import Verif.Harvest.OuterProps
import Verif.Harvest.Grad
import Verif.Harvest.GradProps
import Verif.State.Nested
import Verif.State.NestedSpec
import Verif.State.NestedLemmas
import Verif.State.NestedRun
import Verif.State.NestedProps
import Verif.State.KwargsProps
import Verif.Inverse.Slots
import Verif.Inverse.Grad
import Verif.Inverse.Effects
import Verif.Inverse.GraphGrad
import Verif.Inverse.Jacobian
import Verif.Inverse.Nested
import Verif.Inverse.NestedProps
import Verif.Inverse.NestedIldj
import Verif.Inverse.NestedConst
import Verif.Inverse.ArrModel
import Verif.Inverse.ArrProps
import Verif.Inverse.ArrRules
import Verif.Inverse.ArrExample
import Verif.Inverse.ArrSlab
import Verif.Inverse.ArrGood
import Verif.Inverse.ArrSlots
import Verif.Inverse.ArrLay
import Verif.Inverse.ArrNodes
import Verif.Inverse.ArrExec
import Verif.Inverse.ArrExec2
import Verif.Inverse.ArrRun
import Verif.Inverse.ArrIldj
import Verif.Inverse.ArrIldjExample
import Verif.Inverse.Pmap
import Verif.Inverse.PmapProps
import Verif.Inverse.PmapLanes
import Verif.Inverse.PmapUniform
import Verif.Inverse.PmapSim
import Verif.Inverse.PmapAgree
import Verif.Inverse.PmapExample
import Verif.LogProb.Jacobian
import Verif.LogProb.Solve
import Verif.LogProb.Joint
import Verif.LogProb.JointSpec
import Verif.LogProb.JointEqns
import Verif.LogProb.JointSolve
import Verif.LogProb.JointProps
import Verif.LogProb.JointMain
import Verif.LogProb.JointTrim
import Verif.LogProb.JointAlive
import Verif.LogProb.JointNamed
import Verif.LogProb.JointDensity
import Verif.LogProb.JointThms
import Verif.LogProb.JointExamples
import Verif.LogProb.JointSample
import Verif.LogProb.JointLaw
import Verif.LogProb.JointLawMain
import Verif.LogProb.JointLawProps
import Verif.LogProb.JointLinks
import Verif.LogProb.JointLawExample
import Verif.LogProb.JointSqrt
import Verif.LogProb.JointDo
import Verif.LogProb.JointDoProps
import Verif.LogProb.JointDoLive
import Verif.LogProb.JointDoSim
import Verif.LogProb.JointDoThms
import Verif.LogProb.JointDoExamples
import Verif.LogProb.JointNest
import Verif.LogProb.JointNestCall
import Verif.LogProb.JointNestSys
import Verif.LogProb.JointNestMain
import Verif.LogProb.JointNestThms
import Verif.LogProb.JointNestProps
import Verif.LogProb.JointFix
import Verif.LogProb.JointFixThms
import Verif.LogProb.JointDoLaw
import Verif.LogProb.JointFixProps
import Verif.LogProb.Density
import Verif.LogProb.DensityProps
import Verif.LogProb.DensityDead
import Verif.LogProb.DensityExample
import Verif.Mcmc.PosteriorExample
import Verif.NN.Vmap
import Verif.NN.VmapProps
import Verif.NN.LayerSpec
import Verif.NN.Grad
import Verif.Jit.Model
import Verif.Jit.Props
import Verif.Plate.Props
import Verif.Plate.Density
import Verif.Plate.Hier
