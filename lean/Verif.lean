import Verif.Props.Smr
import Verif.Props.Authority
import Verif.Props.Collection
import Verif.Props.Timer
import Verif.Props.Codec
import Verif.Props.State
import Verif.Props.State2
import Verif.Props.State3
import Verif.Props.State4
import Verif.Props.State5
import Verif.Props.State6
import Verif.Props.Commit
import Verif.Model.Node
import Verif.Proofs.ArmRun
import Verif.Props.Node
import Verif.Props.Node2
import Verif.Props.Node3
import Verif.Props.Node4
import Verif.Model.Net
import Verif.Spec.Net
import Verif.Proofs.Agree
import Verif.Proofs.LockChain
import Verif.Proofs.NodeGenuine
import Verif.Proofs.NodeLock
import Verif.Proofs.NodeSound
import Verif.Proofs.NetInv
import Verif.Proofs.NetDemo
import Verif.Props.Net
import Verif.Spec.Good
import Verif.Proofs.GoodSt
import Verif.Proofs.GoodSt2
import Verif.Proofs.GoodHandlers
import Verif.Proofs.GoodHandlers2
import Verif.Proofs.GoodNode
import Verif.Proofs.GoodNode2
import Verif.Proofs.GoodNode3
import Verif.Proofs.GoodNode4
import Verif.Proofs.GoodNet
import Verif.Proofs.GoodEnd
import Verif.Proofs.GoodDemo
import Verif.Props.Good
import Verif.Spec.Panic
import Verif.Proofs.NoPanic
import Verif.Proofs.NoPanicNode
import Verif.Props.Panic
import Verif.Spec.Live
import Verif.Props.Live
import Verif.Proofs.Prov
import Verif.Spec.Check
import Verif.Props.Check
import Verif.Proofs.NetGen
import Verif.Props.Net2
import Verif.Proofs.Carry
import Verif.Proofs.Ready
import Verif.Proofs.ReadyNode
import Verif.Proofs.ReadyArm
import Verif.Proofs.ReadyStep
import Verif.Proofs.ReadyNet
import Verif.Proofs.OrderInv
import Verif.Proofs.OrderNet
import Verif.Spec.Orders
import Verif.Props.Orders
import Verif.Spec.Progress
import Verif.Proofs.NodeTimer
import Verif.Proofs.NodePace
import Verif.Proofs.Progress
import Verif.Proofs.Progress2
import Verif.Proofs.Progress3
import Verif.Proofs.Progress4
import Verif.Proofs.Lasso
import Verif.Proofs.ProgressDemo
import Verif.Props.Progress
import Verif.Spec.Reasons
import Verif.Proofs.Reason
import Verif.Proofs.ReasonNet
import Verif.Props.Reasons
import Verif.Proofs.Progress5
import Verif.Spec.Signed
import Verif.Proofs.Signed
import Verif.Props.Signed
import Verif.Props.Api
import Verif.Props.Orphan
import Verif.Spec.Origin
import Verif.Proofs.Origin
import Verif.Proofs.OriginNode
import Verif.Proofs.OriginNet
import Verif.Props.Origin
import Verif.Spec.Traffic
import Verif.Proofs.Cost
import Verif.Props.Traffic
import Verif.Props.Traffic2
import Verif.Spec.Light
import Verif.Proofs.Light
import Verif.Props.Light
import Verif.Spec.SelfCheck
import Verif.Proofs.SelfCheck
import Verif.Props.SelfCheck
import Verif.Spec.Early
import Verif.Proofs.Early
import Verif.Props.Early
import Verif.Spec.Chain
import Verif.Proofs.ChainEarly
import Verif.Proofs.Chain
import Verif.Proofs.Chain2
import Verif.Proofs.Chain3
import Verif.Proofs.Chain4
import Verif.Proofs.Chain5
import Verif.Proofs.ChainDemo
import Verif.Props.Chain
import Verif.Spec.Memory
import Verif.Proofs.Memory
import Verif.Proofs.Flood
import Verif.Props.Memory
import Verif.Props.Clock
import Verif.Props.Seeds
import Verif.Props.Again
import Verif.Spec.Single
import Verif.Proofs.Single
import Verif.Props.Single
import Verif.Spec.Blame
import Verif.Proofs.Blame
import Verif.Props.Blame
import Verif.Spec.Deliver
import Verif.Proofs.Deliver
import Verif.Props.Deliver
import Verif.Spec.OneChain
import Verif.Props.OneChain
import Verif.Spec.Forward
import Verif.Proofs.Forward
import Verif.Props.Forward
import Verif.Props.Lag
import Verif.Spec.NoGap
import Verif.Proofs.NoGap
import Verif.Props.NoGap
import Verif.Spec.Old
import Verif.Proofs.Old
import Verif.Props.Old
import Verif.Spec.Certs
import Verif.Proofs.Certs
import Verif.Props.Certs
import Verif.Proofs.Certs2
import Verif.Spec.Leave
import Verif.Props.Leave
import Verif.Props.Leave2
