import Verif.Model.Basic
import Verif.Model.Prog
import Verif.Model.Policy
import Verif.Model.Deps
import Verif.Model.Vec
import Verif.Model.Api
import Verif.Spec.Events
import Verif.Spec.Calls
import Verif.Spec.Accesses
import Verif.Model.Conc
import Verif.Proof.Inv
import Verif.Proof.Logic
import Verif.Proof.Ops
import Verif.Proof.EqLists
import Verif.Proof.Loops
import Verif.Proof.Post
import Verif.Proof.OpSafe
import Verif.Proof.Sound
import Verif.Model.Run
import Verif.Proof.Trace
import Verif.Proof.Timeline
import Verif.Proof.GrowthLemmas
import Verif.Proof.NextLemmas
import Verif.Props.Demo
import Verif.Props.Growth
import Verif.Props.Safety
import Verif.Proof.Quiet
import Verif.Proof.EventTime
import Verif.Props.Len
import Verif.Props.Elements
import Verif.Props.Swap
import Verif.Spec.Progress
import Verif.Proof.Progress
import Verif.Proof.Fair
import Verif.Props.DemoInf
import Verif.Props.Progress
import Verif.Props.Starvation
import Verif.Props.Holes
import Verif.Spec.Views
import Verif.Proof.Views
import Verif.Props.DemoViews
import Verif.Props.Slices
import Verif.Proof.Writes
import Verif.Proof.Bulk
import Verif.Props.Bulk
import Verif.Props.Pointers
import Verif.Model.Solo
import Verif.Spec.ListSpec
import Verif.Proof.Solo
import Verif.Proof.SoloOps
import Verif.Proof.SoloApi
import Verif.Proof.SoloRun
import Verif.Props.Sequential
import Verif.Model.Owned
import Verif.Spec.Owned
import Verif.Proof.Owned
import Verif.Props.Owned
import Verif.Weak.Model
import Verif.Weak.Know
import Verif.Weak.Inv
import Verif.Weak.Step
import Verif.Weak.Ops
import Verif.Weak.Spec
import Verif.Weak.Typed
import Verif.Weak.Sound
import Verif.Weak.Run
import Verif.Weak.Data
import Verif.Weak.DataOps
import Verif.Weak.DataTyped
import Verif.Weak.Trace
import Verif.Weak.SpecValues
import Verif.Weak.Values
import Verif.Props.DemoWeak
import Verif.Props.Weak
import Verif.Props.DemoValues
import Verif.Props.WeakValues
import Verif.Model.Wrap
import Verif.Spec.Requested
import Verif.Proof.Wrap
import Verif.Props.Wrap
import Verif.Proof.StrongFair
import Verif.Props.StrongFair
import Verif.Proof.Counted
import Verif.Props.SliceSwap
import Verif.Spec.ReadBack
import Verif.Proof.ReadBack
import Verif.Props.ReadBack
import Verif.Spec.Ledger
import Verif.Proof.Ledger
import Verif.Props.Ledger
import Verif.Proof.Stalled
import Verif.Props.Reentrant
import Verif.Proof.Uses
import Verif.Props.Isolation
import Verif.Model.UserCode
import Verif.Spec.UserCode
import Verif.Proof.UserCode
import Verif.Props.UserCode
import Verif.Weak.SpecProgress
import Verif.Weak.Progress
import Verif.Props.DemoWeakInf
import Verif.Props.WeakProgress
import Verif.Model.Compare
import Verif.Spec.Compare
import Verif.Proof.CompareElem
import Verif.Proof.Compare
import Verif.Proof.CompareLists
import Verif.Props.DemoCompare
import Verif.Props.Compare
import Verif.Proof.CompareProgress
import Verif.Proof.CompareEnds
import Verif.Proof.CompareHangs
import Verif.Proof.CompareFair
import Verif.Proof.CompareStrong
import Verif.Props.DemoCompareInf
import Verif.Props.CompareProgress
import Verif.Spec.Work
import Verif.Proof.Work
import Verif.Proof.WorkExec
import Verif.Props.Work
import Verif.Weak.Work
import Verif.Props.WeakWork
import Verif.Weak.Owner
import Verif.Weak.Taken
import Verif.Weak.Published
import Verif.Props.DemoWeakOwner
import Verif.Props.WeakOwner
import Verif.Weak.SpecAlone
import Verif.Weak.Alone
import Verif.Props.DemoWeakAlone
import Verif.Props.WeakSequential
import Verif.Weak.Compare
import Verif.Weak.SpecCompare
import Verif.Weak.CompareElem
import Verif.Weak.CompareInv
import Verif.Props.DemoWeakCompare
import Verif.Props.WeakCompare
import Verif.Weak.SpecCompareProgress
import Verif.Weak.CompareProgress
import Verif.Weak.CompareAhead
import Verif.Weak.CompareEnds
import Verif.Weak.CompareFair
import Verif.Weak.CompareHangs
import Verif.Props.DemoWeakCompareInf
import Verif.Props.WeakCompareProgress
import Verif.Weak.Wrap
import Verif.Weak.SpecWrap
import Verif.Weak.WrapProof
import Verif.Props.WeakWrap
import Verif.Model.Machine
import Verif.Spec.Machine
import Verif.Proof.Machine
import Verif.Proof.MachineExec
import Verif.Props.Machine
import Verif.Weak.SpecInterleave
import Verif.Weak.Interleave
import Verif.Props.WeakInterleave
import Verif.Weak.SpecSwap
import Verif.Weak.SwapHangs
import Verif.Props.WeakSwap
import Verif.Weak.Lost
import Verif.Props.WeakLost
import Verif.Props.WeakStalled
import Verif.Weak.Stalled
import Verif.Weak.SpecLock
import Verif.Weak.SpecStall
import Verif.Weak.OwnElement
import Verif.Props.WeakIsolation
import Verif.Weak.Machine
import Verif.Weak.SpecMachine
import Verif.Weak.MachineProof
import Verif.Props.WeakMachine
import Verif.Weak.SpecHole
import Verif.Weak.Hole
import Verif.Props.WeakHoles
import Verif.Props.WeakElement
import Verif.Weak.SpecNext
import Verif.Weak.Storage
import Verif.Props.WeakStorage
