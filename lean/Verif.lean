import Verif.Model.Main
import Verif.Model.Limit
import Verif.Props.Rational
import Verif.Props.Number
import Verif.Props.Aggregate
import Verif.Props.Structure
import Verif.Props.Taylor
import Verif.Props.Display
import Verif.Props.LimitShape
import Verif.Props.Semantics
import Verif.Props.Main
import Verif.Props.LimitArith
import Verif.Props.LimitSem
import Verif.Props.Readback
import Verif.Spec.LimitSearch
import Verif.Proofs.LimitFull
import Verif.Proofs.LimitNever
import Verif.Props.LimitFull
import Verif.Props.LimitTerm
import Verif.Props.Rounding
import Verif.Model.Float64
import Verif.Spec.Float64
import Verif.Proofs.Float64Sym
import Verif.Props.Float64
import Verif.Replay
import Verif.Spec.Poly
import Verif.Proofs.Poly
import Verif.Props.Poly
import Verif.Proofs.TaylorTotal
import Verif.Props.TaylorTotal
import Verif.Spec.Rename
import Verif.Proofs.Rename
import Verif.Props.Rename
import Verif.Spec.Partial
import Verif.Proofs.Partial
import Verif.Proofs.Chain
import Verif.Props.Partial
import Verif.Spec.Eval
import Verif.Props.Eval
import Verif.Props.Growth
import Verif.Spec.Enclose
import Verif.Proofs.Enclose
import Verif.Proofs.EncloseDer
import Verif.Proofs.EncloseRed
import Verif.Proofs.EncloseAgg
import Verif.Proofs.EncloseTaylor
import Verif.Proofs.EncloseArith
import Verif.Props.Enclose
import Verif.Proofs.EncloseLimit
import Verif.Props.EncloseLimit
import Verif.Proofs.GhostR
import Verif.Proofs.Vanish
import Verif.Proofs.EncloseLHopital
import Verif.Props.EncloseLHopital
import Verif.Spec.Height
import Verif.Proofs.Height
import Verif.Proofs.HeightExpr
import Verif.Props.Height
import Verif.Spec.LimitForm
import Verif.Proofs.LimitForm
import Verif.Props.LimitForm
import Verif.Props.LimitEval
import Verif.Props.PosPoly
import Verif.Spec.SinPoly
import Verif.Proofs.SinPoly
import Verif.Props.SinPoly
import Verif.Spec.Laws
import Verif.Props.Laws
import Verif.Spec.Series
import Verif.Proofs.Series
import Verif.Props.Series
import Verif.Props.EveryBuild
import Verif.Props.LimitAlgebra
import Verif.Spec.LimitDisplay
import Verif.Props.LimitDisplay
import Verif.Spec.LimitEnclose
import Verif.Props.LimitEnclose
import Verif.Spec.Overflow
import Verif.Props.Overflow
import Verif.Props.OverflowMixed
import Verif.Props.DivZero
import Verif.Spec.Residual
import Verif.Props.Residual
import Verif.Spec.TaylorText
import Verif.Props.TaylorText
import Verif.Spec.IntPoly
import Verif.Props.IntPoly
import Verif.Spec.Expansion
import Verif.Props.ExpansionAlgebra
import Verif.Props.ExpansionComp
import Verif.Props.LimitExpansion
import Verif.Props.SameLimit
import Verif.Props.SameExpansion
import Verif.Props.LimitVars
import Verif.Props.SeriesTrue
import Verif.Proofs.Float64Unique
import Verif.Props.Nearest
import Verif.Props.Special
import Verif.Spec.Formula
import Verif.Proofs.Float64Bits
import Verif.Props.Formula
import Verif.Props.LimitSubst
import Verif.Props.DifferenceQuotient
import Verif.Spec.LimitOrder
import Verif.Spec.LHopital
import Verif.Props.LimitOrder
import Verif.Props.LHopitalTrace
import Verif.Props.Monotone
import Verif.Props.FirstTerm
import Verif.Props.Uncancelled
import Verif.Props.Curvature
import Verif.Props.OneSided
import Verif.Props.Zeros
