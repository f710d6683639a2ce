import Verif.Var.Registry
import Verif.Props.Variables
import Verif.Num.ZZ
import Verif.Num.ZZLemmas
import Verif.Num.QQ
import Verif.Num.Zp
import Verif.Num.ZpLemmas
import Verif.Props.NumZZ
import Verif.Props.NumQQ
import Verif.Props.NumZp
import Verif.PairVec.Defs
import Verif.PairVec.Spec
import Verif.PairVec.Basic
import Verif.PairVec.HeapDefs
import Verif.PairVec.HeapLemmas
import Verif.PairVec.MulDefs
import Verif.PairVec.Mul
import Verif.PairVec.DivDefs
import Verif.PairVec.Div
import Verif.PairVec.System
import Verif.Mono.Defs
import Verif.Mono.Order
import Verif.Mono.Sys
import Verif.Mono.Ops
import Verif.Poly.PackedDefs
import Verif.Poly.Codec
import Verif.Poly.CodecOrd
import Verif.Props.Monomials
import Verif.Poly.PackedMul
import Verif.Poly.MulSpec
import Verif.Poly.Mold
import Verif.Poly.PackedDiv
import Verif.Poly.DivCodecs
import Verif.Poly.Support
import Verif.Poly.DivSpec
import Verif.Poly.OpsDefs
import Verif.Poly.OpsSpec
import Verif.Poly.ScalarSpec
import Verif.Poly.PowSpec
import Verif.Props.Polynomials
import Verif.Poly.FnDefs
import Verif.Poly.FnSpec
import Verif.Poly.PremSpec
import Verif.Poly.SubstSpec
import Verif.Props.PolyFns
import Verif.Groebner.Theory
import Verif.Groebner.Update
import Verif.Groebner.Defs
import Verif.Groebner.Rank
import Verif.Groebner.NormalForm
import Verif.Groebner.SPoly
import Verif.Groebner.Main
import Verif.Groebner.Reduced
import Verif.Poly.ConvertDefs
import Verif.Poly.ConvertSpec
import Verif.Groebner.ZZDefs
import Verif.Groebner.ZZSpec
import Verif.Props.Groebner
import Verif.Graph.Defs
import Verif.Graph.Spec
import Verif.Graph.Branch
import Verif.Graph.Elim
import Verif.Graph.McsAbs
import Verif.Graph.McsDefs
import Verif.Graph.McsSpec
import Verif.Graph.McsMain
import Verif.Graph.McsChordal
import Verif.Graph.Final
import Verif.Props.Graphs
import Verif.Dense.Defs
import Verif.Dense.Word
import Verif.Dense.Lists
import Verif.Dense.Div
import Verif.Dense.Hgcd
import Verif.Dense.Public
import Verif.Props.Dense
import Verif.Upoly.Defs
import Verif.Upoly.Basic
import Verif.Upoly.ZpBasic
import Verif.Upoly.Valuation
import Verif.Upoly.Sqf
import Verif.Upoly.Ddf
import Verif.Upoly.Ext
import Verif.Upoly.Edf
import Verif.Props.FactorZp
import Verif.PairVec.DivEmit
import Verif.Upoly.GcdZDefs
import Verif.Upoly.Content
import Verif.Upoly.Heu
import Verif.Upoly.GcdZ
import Verif.Upoly.Pseudo
import Verif.Props.GcdZZ
import Verif.Upoly.FactorZDefs
import Verif.Upoly.FactorZArith
import Verif.Upoly.ModDiv
import Verif.Upoly.Hensel
import Verif.Upoly.HenselTree
import Verif.Upoly.HenselLift
import Verif.Upoly.Comb
import Verif.Upoly.Uniq
import Verif.Upoly.ZassTry
import Verif.Upoly.Zass
import Verif.Upoly.VHDefs
import Verif.Upoly.VH
import Verif.Upoly.Select
import Verif.Upoly.Driver
import Verif.Props.FactorZZ
import Verif.Props.RealRoot
import Verif.Props.URoot
import Verif.Random.Defs
import Verif.Random.Comb
import Verif.Random.Spec
import Verif.Random.Dense
import Verif.Random.RGraph
import Verif.Random.Many
import Verif.Props.Random
import Verif.Upoly.GcdLive
import Verif.Upoly.GcdDiverge
import Verif.Upoly.FirstPrime
import Verif.Gcd.Run
import Verif.Gcd.Defs
import Verif.Gcd.Theory
import Verif.Gcd.Lists
import Verif.Gcd.Interp
import Verif.Gcd.ModPLists
import Verif.Gcd.ModP
import Verif.Gcd.Cont
import Verif.Gcd.ZLists
import Verif.Gcd.Growth
import Verif.Gcd.ZSpec
import Verif.Gcd.Strict
import Verif.Gcd.SqfTheory
import Verif.Gcd.SqfDefs
import Verif.Gcd.SqfSpec
import Verif.Gcd.Basis
import Verif.Gcd.SqfStrict
import Verif.Props.MGcd
import Verif.Props.FactorAll
import Verif.Res.Det
import Verif.Res.Chain
import Verif.Res.Defs
import Verif.Res.Ops
import Verif.Res.Loop
import Verif.Res.Start
import Verif.Res.Bez
import Verif.Res.BezSpec
import Verif.Res.ResSpec
import Verif.Res.SubLoop
import Verif.Res.SubSpec
import Verif.Res.Zero
import Verif.Props.Resultant
import Verif.Charset.Defs
import Verif.Charset.Basset
import Verif.Charset.Chain
import Verif.Charset.Loop
import Verif.Charset.Sqf
import Verif.Charset.Wu
import Verif.Props.Charset
import Verif.Res.Psc
import Verif.Charset.RegDefs
import Verif.Charset.RegOps
import Verif.Charset.RegChain
import Verif.Charset.RegWrsd
import Verif.Charset.RegIs
import Verif.Props.RegularChains
import Verif.Res.FuelMono
import Verif.Charset.RegMono
import Verif.Charset.RegZd
import Verif.Charset.RegDiv
import Verif.Charset.RegSqf
import Verif.Charset.RegRsd
import Verif.Charset.RegSas
import Verif.Props.ZeroDim
import Verif.Wang.Defs
import Verif.Wang.Sign
import Verif.Wang.Core
import Verif.Wang.MonoContent
import Verif.Wang.Multi
import Verif.Wang.Point
import Verif.Wang.Irr
import Verif.Wang.Strict
import Verif.Wang.IrrMath
import Verif.Wang.Full
import Verif.Wang.AllIrr
import Verif.Props.FactorIrr
import Verif.Wang.LiftDefs
import Verif.Wang.LiftOps
import Verif.Wang.LiftTaylor
import Verif.Wang.LiftSparse
import Verif.Wang.LiftAll
import Verif.Wang.LiftLead
import Verif.Wang.LiftSub
import Verif.Wang.Code
import Verif.Props.FactorCode
import Verif.Props.FactorMulti
import Verif.Upoly.LLLDefs
import Verif.Upoly.LLLGs
import Verif.Upoly.LLL
import Verif.Upoly.LLLShort
import Verif.Upoly.VHLat
import Verif.Upoly.VHL
import Verif.Upoly.VHTotal
import Verif.Upoly.VHRows
import Verif.Props.Lattice
import Verif.Lift.Defs
import Verif.Lift.Mdp
import Verif.Lift.Vdm
import Verif.Lift.Theta
import Verif.Props.Lifting
import Verif.Wang.HenselMath
import Verif.Wang.LiftLin
import Verif.Wang.LiftExact
import Verif.Wang.LiftStep
import Verif.Wang.LiftComplete
import Verif.Wang.SparseExact
import Verif.Wang.SolveExact
import Verif.Wang.LiftTotal
import Verif.Wang.SparseTotal
import Verif.Wang.SparseComplete
import Verif.Props.MultiLift
import Verif.Wang.LeadExact
import Verif.Wang.LeadTotal
import Verif.Wang.LeadFound
import Verif.Wang.LeadUp
import Verif.Props.LeadCoeff
import Verif.Gcd.ExtDefs
import Verif.Gcd.ExtSpec
import Verif.Props.ExtGcd
import Verif.Print.Defs
import Verif.Print.Read
import Verif.Print.Spec
import Verif.Props.Printing
import Verif.Props.RealRootAll
import Verif.Gcd.Diverge
import Verif.Num.IO
import Verif.Props.Reading
import Verif.Wang.CoeffBound
import Verif.Wang.DenseExact
import Verif.Props.CoeffBound
import Verif.Poly.Hash
import Verif.Props.Hash
import Verif.Wang.DenseTotal
import Verif.Graph.PeoDefs
import Verif.Graph.DfvSpec
import Verif.Graph.PeoSpec
import Verif.Graph.HeightSpec
import Verif.Graph.DiffSpec
import Verif.Props.GraphOrders
import Verif.Props.Access
import Verif.Poly.Find
import Verif.Factor.UPrem
import Verif.Poly.VarList
import Verif.Props.VarList
import Verif.Graph.MD
import Verif.Props.MD
import Verif.Props.MGcdUni
import Verif.Mono.Objects
import Verif.Props.Objects
import Verif.Poly.Objects
import Verif.Props.PolyObjects
import Verif.Num.Memory
import Verif.Props.Memory
