import Verif.Model.Value
import Verif.Model.Algorithms
import Verif.Model.Lazy
import Verif.Model.History
import Verif.Spec.Tree
import Verif.Proofs.Shape
import Verif.Proofs.OneCall
import Verif.Spec.Eager
import Verif.Proofs.Fresh
import Verif.Proofs.HistoryFresh
import Verif.Proofs.LazyMore
import Verif.Proofs.LazyHist
import Verif.Proofs.LazyLog
import Verif.Spec.Replay
import Verif.Proofs.Replay
import Verif.Props.Demo
import Verif.Props.LazyA
import Verif.Props.LazyB
import Verif.Props.LazyC
import Verif.Model.Partition
import Verif.Props.Algorithms
import Verif.Props.Partition
import Verif.Model.Uncapture
import Verif.Props.Uncapture
import Verif.Model.RegularVoid
import Verif.Props.RegularVoid
import Verif.Model.Cxx
import Verif.Model.Overload
import Verif.Props.Overload
import Verif.Model.ForwardLike
import Verif.Props.ForwardLike
import Verif.Model.Recursive
import Verif.Props.Recursive
import Verif.Model.Memory
import Verif.Model.Pack
import Verif.Model.CompressedTuple
import Verif.Proofs.CompressedTuple
import Verif.Proofs.Construct
import Verif.Spec.Tuple
import Verif.Proofs.TupleRefines
import Verif.Props.CompressedTuple
import Verif.Model.Apply
import Verif.Model.Bind
import Verif.Spec.Bind
import Verif.Spec.Calls
import Verif.Proofs.Bind
import Verif.Proofs.Calls
import Verif.Proofs.Make
import Verif.Props.Bind
import Verif.Props.Apply
import Verif.Model.Regularize
import Verif.Props.Regularize
import Verif.Model.Layout
import Verif.Spec.Layout
import Verif.Proofs.Layout
import Verif.Proofs.LayoutSpec
import Verif.Proofs.LayoutDistinct
import Verif.Props.Layout
import Verif.Model.LazyMem
import Verif.Proofs.ByValue
import Verif.Proofs.LazyMem
import Verif.Model.LazyMake
import Verif.Spec.LazyMem
import Verif.Proofs.LazyMake
import Verif.Proofs.LazyRun
import Verif.Props.LazyMem
import Verif.Model.LazyLayout
import Verif.Spec.LazyLayout
import Verif.Proofs.LazyLayout
import Verif.Props.LazyLayout
import Verif.Spec.Compare
import Verif.Proofs.Compare
import Verif.Spec.Throwing
import Verif.Proofs.Throwing
import Verif.Props.LazyD
import Verif.Props.LazyE
import Verif.Model.EmptyObject
import Verif.Props.EmptyObject
import Verif.Model.Signature
import Verif.Spec.Signature
import Verif.Proofs.Signature
import Verif.Props.Signature
import Verif.Model.Typing
import Verif.Spec.Typing
import Verif.Proofs.Typing
import Verif.Props.Typing
import Verif.Model.LazyAs
import Verif.Proofs.LazyAs
import Verif.Props.LazyAs
import Verif.Spec.Copies
import Verif.Proofs.Copies
import Verif.Props.Copies
import Verif.Model.CallableLayout
import Verif.Spec.CallableLayout
import Verif.Proofs.CallableLayout
import Verif.Props.CallableLayout
import Verif.Model.Concepts
import Verif.Props.Concepts
import Verif.Model.LazyEff
import Verif.Proofs.LazyEff
import Verif.Props.LazyEff
import Verif.Model.FirstDesign
import Verif.Spec.FirstDesign
import Verif.Proofs.FirstDesign
import Verif.Proofs.FirstDesignFresh
import Verif.Props.FirstDesign
import Verif.Tests.Lazy
import Verif.Tests.Tuples
import Verif.Tests.Sizes

import Verif.Proofs.Constant
import Verif.Props.Reactive
import Verif.Model.Handwritten
import Verif.Spec.Handwritten
import Verif.Proofs.Handwritten
import Verif.Props.Handwritten
import Verif.Model.CallOnce
import Verif.Spec.CallOnce
import Verif.Proofs.CallOnce
import Verif.Props.CallOnce
import Verif.Spec.Sugar
import Verif.Proofs.Sugar
import Verif.Props.Sugar
import Verif.Model.ExtraLazy
import Verif.Spec.ExtraLazy
import Verif.Proofs.ExtraLazy
import Verif.Props.ExtraLazy
import Verif.Props.FinalDesign
import Verif.Model.FinalDesign
import Verif.Proofs.FinalDesign
import Verif.Proofs.FinalDesignHistory
import Verif.Spec.FinalDesign
import Verif.Model.UserLazy
import Verif.Spec.UserLazy
import Verif.Proofs.UserLazy
import Verif.Props.UserLazy
import Verif.Model.FirstLayout
import Verif.Spec.FirstLayout
import Verif.Proofs.FirstLayout
import Verif.Props.FirstLayout
import Verif.Model.Sharing
import Verif.Spec.Sharing
import Verif.Proofs.Sharing
import Verif.Props.Sharing
import Verif.Model.Moving
import Verif.Spec.Moving
import Verif.Proofs.Moving
import Verif.Proofs.MovingMem
import Verif.Props.Moving
import Verif.Spec.ConstDep
import Verif.Proofs.ConstDep
import Verif.Proofs.ArrowLoads
import Verif.Props.ConstDep
import Verif.Model.LazyGlue
import Verif.Spec.LazyGlue
import Verif.Proofs.GlueBind
import Verif.Proofs.LazyGlue
import Verif.Proofs.GlueCall
import Verif.Proofs.GlueRun
import Verif.Props.LazyGlue
import Verif.Model.EffHistory
import Verif.Spec.EffHistory
import Verif.Proofs.EffHistory
import Verif.Props.EffHistory
import Verif.Spec.Interference
import Verif.Proofs.Interference
import Verif.Props.Interference
import Verif.Model.Reentrant
import Verif.Spec.Reentrant
import Verif.Proofs.Reentrant
import Verif.Props.Reentrant
import Verif.Model.OptResult
import Verif.Spec.OptResult
import Verif.Proofs.OptResult
import Verif.Props.OptResult
import Verif.Model.Threads
import Verif.Spec.Threads
import Verif.Proofs.Threads
import Verif.Proofs.ThreadsLocal
import Verif.Proofs.ThreadsExec
import Verif.Proofs.ThreadsWork
import Verif.Proofs.ThreadsSerial
import Verif.Props.Threads
import Verif.Model.MsLayout
import Verif.Spec.MsLayout
import Verif.Proofs.MsLayout
import Verif.Props.MsLayout
import Verif.Model.MsMake
import Verif.Spec.MsMake
import Verif.Proofs.MsMake
import Verif.Props.MsMake
import Verif.Model.Special
import Verif.Props.Special
import Verif.Spec.CallCopies
import Verif.Proofs.CallCopies
import Verif.Props.CallCopies
import Verif.Model.UncaptureMake
import Verif.Spec.UncaptureMake
import Verif.Proofs.UncaptureMake
import Verif.Props.UncaptureMake
import Verif.Model.ResultCopies
import Verif.Spec.ResultCopies
import Verif.Proofs.ResultCopies
import Verif.Props.ResultCopies
import Verif.Spec.MakeCopies
import Verif.Proofs.MakeCopies
import Verif.Props.MakeCopies
import Verif.Spec.CallCost
import Verif.Proofs.CallCost
import Verif.Props.CallCost
import Verif.Model.Requirements
import Verif.Props.Requirements
import Verif.Spec.Remember
import Verif.Proofs.Remember
import Verif.Props.Remember
import Verif.Props.RememberMem
import Verif.Spec.Forget
import Verif.Proofs.Forget
import Verif.Props.Forget
import Verif.Spec.Refactor
import Verif.Proofs.Refactor
import Verif.Proofs.Fusion
import Verif.Props.Refactor
import Verif.Props.MovingCopy
import Verif.Spec.Constants
import Verif.Proofs.Constants
import Verif.Props.Constants
import Verif.Model.Convert
import Verif.Spec.Convert
import Verif.Proofs.Convert
import Verif.Props.Convert
import Verif.Spec.Meaning
import Verif.Proofs.Meaning
import Verif.Props.Meaning
import Verif.Proofs.MeaningThrow
import Verif.Model.MsOffsets
import Verif.Spec.MsOffsets
import Verif.Proofs.MsOffsets
import Verif.Props.MsOffsets
import Verif.Model.Offsets
import Verif.Spec.Offsets
import Verif.Proofs.Offsets
import Verif.Props.Offsets
import Verif.Model.MsState
import Verif.Spec.MsState
import Verif.Proofs.MsState
import Verif.Props.MsState
import Verif.Model.State
import Verif.Spec.State
import Verif.Proofs.State
import Verif.Props.State
import Verif.Spec.Folded
import Verif.Proofs.Folded
import Verif.Props.Folded
import Verif.Spec.RefactorSeen
import Verif.Proofs.RefactorSeen
import Verif.Props.RefactorMem
import Verif.Model.BindChain
import Verif.Spec.BindChain
import Verif.Proofs.BindChain
import Verif.Props.BindChain
import Verif.Proofs.BindArgs
import Verif.Spec.SameLayout
import Verif.Props.SameLayout
import Verif.Proofs.OffsetsExact
import Verif.Proofs.SameOffsets
import Verif.Spec.Nested
import Verif.Proofs.Nested
import Verif.Props.Nested
