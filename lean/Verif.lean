import Verif.Core.Mem
import Verif.Core.World
import Verif.Core.Arr
import Verif.Vector.Model
import Verif.Vector.Spec
import Verif.Vector.Proofs
import Verif.Vector.Run
import Verif.Vector.Refine
import Verif.Vector.Throw
import Verif.Vector.Props
import Verif.List.Model
import Verif.List.Spec
import Verif.List.Path
import Verif.List.Proofs
import Verif.List.Run
import Verif.List.Refine
import Verif.List.Props
import Verif.List.QueueSpec
import Verif.List.Queue
import Verif.List.QueueProps
import Verif.List.QueueThrowProps
import Verif.Deque.QueueThrowSpec
import Verif.Deque.QueueThrowRun
import Verif.Deque.QueueThrowProps
import Verif.FList.Model
import Verif.FList.Spec
import Verif.FList.Proofs
import Verif.FList.Throw
import Verif.FList.Run
import Verif.FList.Refine
import Verif.FList.Props
import Verif.Swap.Model
import Verif.Swap.Props
import Verif.Swap.Move
import Verif.Swap.MoveProps
import Verif.Tree.Order
import Verif.Tree.Model
import Verif.Tree.Spec
import Verif.Tree.RB
import Verif.Tree.Proofs
import Verif.Tree.Iter
import Verif.Tree.Methods
import Verif.Tree.Run
import Verif.Tree.Refine
import Verif.Tree.Generic
import Verif.Tree.SetProps
import Verif.Tree.MapProps
import Verif.Str.Model
import Verif.Str.Spec
import Verif.Str.Run
import Verif.Str.Proofs
import Verif.Str.Methods
import Verif.Str.Search
import Verif.Str.Input
import Verif.Str.Refine
import Verif.Str.More
import Verif.Str.Props
import Verif.Deque.Model
import Verif.Deque.Spec
import Verif.Deque.Run
import Verif.Deque.Proofs
import Verif.Deque.Methods
import Verif.Deque.Iter
import Verif.Deque.Refine
import Verif.Deque.Props
import Verif.Deque.Throw
import Verif.Uptr.Model
import Verif.Uptr.Spec
import Verif.Uptr.Run
import Verif.Uptr.Proofs
import Verif.Uptr.Props
import Verif.Sptr.Model
import Verif.Sptr.Spec
import Verif.Sptr.Run
import Verif.Sptr.Proofs
import Verif.Sptr.Props
import Verif.Stream.Types
import Verif.Stream.Spec
import Verif.Stream.Model
import Verif.Stream.Run
import Verif.Stream.Proofs
import Verif.Stream.Methods
import Verif.Stream.Ctors
import Verif.Stream.Refine
import Verif.Stream.Props
import Verif.Cctype.Model
import Verif.Cctype.Props
import Verif.Complex.Model
import Verif.Complex.Spec
import Verif.Complex.Proofs
import Verif.Complex.Props
import Verif.Cmath.Model
import Verif.Cmath.Spec
import Verif.Cmath.Double
import Verif.Cmath.Proofs
import Verif.Cmath.Trig
import Verif.Cmath.ExpLog
import Verif.Cmath.Atan
import Verif.Cmath.Props
import Verif.Cmath.Cost
import Verif.Ostream.Std
import Verif.Ostream.Model
import Verif.Ostream.Spec
import Verif.Ostream.Proofs
import Verif.Ostream.Props
import Verif.ComplexFn.Model
import Verif.ComplexFn.Props
import Verif.Fp.Round
import Verif.Fp.Decimal
import Verif.Fp.Sqrt
import Verif.Fp.Trig
import Verif.Fp.Log
import Verif.Fp.Exp
import Verif.Fp.Hyp
import Verif.Fp.Atan
import Verif.Fp.Props
import Verif.Fp.Depth
import Verif.Fp.DepthBig
import Verif.Fp.DepthProps
import Verif.Sdel.Spec
import Verif.Sdel.Model
import Verif.Sdel.Proofs
import Verif.Sdel.Props
import Verif.Uptr.FunCopy
import Verif.Stream.Cin
import Verif.Stream.Flags
import Verif.Vector.More
import Verif.CxFp.Spec
import Verif.CxFp.Proofs
import Verif.CxFp.Pow
import Verif.CxFp.Props
import Verif.ComplexFn.FpSpec
import Verif.ComplexFn.FpProofs
import Verif.ComplexFn.FpProps
import Verif.Core.Cost
import Verif.Core.NCost
import Verif.Vector.CostSpec
import Verif.Vector.Cost
import Verif.Vector.CostProps
import Verif.List.CostSpec
import Verif.List.Cost
import Verif.List.CostProps
import Verif.FList.CostSpec
import Verif.FList.Cost
import Verif.FList.CostProps
import Verif.Tree.CostSpec
import Verif.Tree.Cost
import Verif.Tree.CostProps
import Verif.Tree.Cmp
import Verif.Tree.CmpProofs
import Verif.Tree.CmpProps
import Verif.Deque.CostSpec
import Verif.Deque.Cost
import Verif.Deque.CostProps
import Verif.Vector.ThrowProps
import Verif.Deque.RefProps
import Verif.Str.Growth
import Verif.Str.GrowthProps
import Verif.Ieee.Model
import Verif.Ieee.Basic
import Verif.Ieee.Sqrt
import Verif.Ieee.Trig
import Verif.Ieee.Values
import Verif.Ieee.Cosh
import Verif.Ieee.Log
import Verif.Ieee.Atan
import Verif.Ieee.Atan2
import Verif.Ieee.Exp
import Verif.Ieee.Spec
import Verif.Ieee.Props
import Verif.List.Alias
import Verif.FList.Alias
import Verif.Tree.Alias
import Verif.Deque.Alias
import Verif.Core.Frame
import Verif.List.ThrowSpec
import Verif.List.ThrowRun
import Verif.List.ThrowHist
import Verif.List.ThrowProps
import Verif.FList.ThrowSpec
import Verif.FList.ThrowRun
import Verif.FList.ThrowHist
import Verif.FList.ThrowProps
import Verif.Tree.OomSpec
import Verif.Tree.OomRun
import Verif.Tree.OomHist
import Verif.Tree.OomProps
import Verif.Str.Cost
import Verif.Str.OomSpec
import Verif.Str.OomRun
import Verif.Str.Caps
import Verif.Str.OomHist
import Verif.Str.OomProps
import Verif.Core.FrameArr
import Verif.Vector.HistSpec
import Verif.Vector.HistRun
import Verif.Vector.Hist
import Verif.Vector.HistThrow
import Verif.Vector.HistStep
import Verif.Vector.HistRefine
import Verif.Vector.HistProps
import Verif.Deque.HistSpec
import Verif.Deque.HistRun
import Verif.Deque.Hist
import Verif.Deque.HistThrow
import Verif.Deque.HistRefine
import Verif.Deque.HistProps
import Verif.Sptr.OomSpec
import Verif.Sptr.OomRun
import Verif.Sptr.Oom
import Verif.Sptr.OomProps
import Verif.Uptr.OomSpec
import Verif.Uptr.Oom
import Verif.Uptr.OomProps
import Verif.Fp.Order
import Verif.Fp.OrderBad
import Verif.Fp.OrderBad2
import Verif.Fp.OrderProps
import Verif.Fp.Range
import Verif.Fp.RangeProps
import Verif.Stream.WideSpec
import Verif.Stream.Wide
import Verif.Stream.WideProps
import Verif.Stream.OomSpec
import Verif.Stream.OomRun
import Verif.Stream.Oom
import Verif.Stream.OomHist
import Verif.Stream.OomProps
import Verif.Tree.Walk
import Verif.Tree.WalkProofs
import Verif.Tree.WalkProps
import Verif.Sdel.OomSpec
import Verif.Sdel.OomRun
import Verif.Sdel.Oom
import Verif.Sdel.OomLost
import Verif.Sdel.OomProps
import Verif.Fp.IdentProps
import Verif.Str.FindCostSpec
import Verif.Str.FindCost
import Verif.Str.FindCostProofs
import Verif.Str.FindCostProps
import Verif.Fp.Pow
import Verif.Fp.PowProps
import Verif.ComplexFn.IdentProps
import Verif.Ieee.ExpFull
import Verif.Ieee.CoshFull
import Verif.Ieee.SinhFull
import Verif.Ieee.SinBig
import Verif.Fp.SinAll
import Verif.Fp.SinProps
import Verif.Ieee.SinFull
import Verif.Ieee.SinProps
import Verif.CxIeee.Model
import Verif.CxIeee.Spec
import Verif.CxIeee.Proofs
import Verif.CxIeee.Props
import Verif.ComplexFn.IeeeModel
import Verif.ComplexFn.IeeeProofs
import Verif.ComplexFn.IeeeProps
import Verif.ComplexFn.IeeeValues
import Verif.ComplexFn.IeeeSqrt
import Verif.ComplexFn.IeeeValProps
import Verif.Alloc.Model
import Verif.Alloc.Proofs
import Verif.Alloc.Props
