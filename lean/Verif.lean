import Verif.Model.Analysis
import Verif.Model.AnalysisChecked
import Verif.Model.ArithPoly
import Verif.Model.BacktrackChecked
import Verif.Model.BoolChecked
import Verif.Model.BoolHistory
import Verif.Model.BoolTheory
import Verif.Model.Bounds
import Verif.Model.Check
import Verif.Model.Combination
import Verif.Model.Commands
import Verif.Model.Decimal
import Verif.Model.Dimacs
import Verif.Model.Events
import Verif.Model.FirstCheck
import Verif.Model.Fm
import Verif.Model.FmChecked
import Verif.Model.FractionExpr
import Verif.Model.FractionInt
import Verif.Model.Frontend
import Verif.Model.IntFraction
import Verif.Model.Internalizer
import Verif.Model.Learn
import Verif.Model.Let
import Verif.Model.Lexer
import Verif.Model.LinearConstraint
import Verif.Model.LinearPolynomial
import Verif.Model.Literal
import Verif.Model.LiteralMap
import Verif.Model.LongFraction
import Verif.Model.LraChecks
import Verif.Model.LraDecide
import Verif.Model.LraHistory
import Verif.Model.LraPlugin
import Verif.Model.LraPluginHistory
import Verif.Model.LraUnassigned
import Verif.Model.OrderMemory
import Verif.Model.PQueue
import Verif.Model.PolyMemory
import Verif.Model.PrintModel
import Verif.Model.Propositional
import Verif.Model.QfLra
import Verif.Model.QfOrder
import Verif.Model.QfOrderRun
import Verif.Model.QfRun
import Verif.Model.QueueMemory
import Verif.Model.Response
import Verif.Model.Restart
import Verif.Model.Rewriter
import Verif.Model.SatMain
import Verif.Model.Script
import Verif.Model.SmtMain
import Verif.Model.Std
import Verif.Model.Subsumption
import Verif.Model.SubsumptionChecked
import Verif.Model.TermChecked
import Verif.Model.TermHistory
import Verif.Model.TermManager
import Verif.Model.TermParser
import Verif.Model.Terms
import Verif.Model.Trail
import Verif.Model.TrailHistory
import Verif.Model.TrailMemory
import Verif.Model.Uf
import Verif.Model.UfHistory
import Verif.Model.UfLra
import Verif.Model.UfLraOrder
import Verif.Model.UfLraRun
import Verif.Model.VarOrder
import Verif.Model.Visitor
import Verif.Model.Wiring
import Verif.Proofs.Accept
import Verif.Proofs.Analysis
import Verif.Proofs.AnalysisChecked
import Verif.Proofs.AnalysisExample
import Verif.Proofs.AppIn
import Verif.Proofs.ArithPoly
import Verif.Proofs.BacktrackChecked
import Verif.Proofs.Bcp
import Verif.Proofs.BcpInit
import Verif.Proofs.BcpTerm
import Verif.Proofs.BoolChecked
import Verif.Proofs.BoolComplete
import Verif.Proofs.BoolExample
import Verif.Proofs.BoolHist
import Verif.Proofs.Bounds
import Verif.Proofs.Check
import Verif.Proofs.CheckProp
import Verif.Proofs.CheckTerm
import Verif.Proofs.Commands
import Verif.Proofs.Decimal
import Verif.Proofs.Dimacs
import Verif.Proofs.Eliminate
import Verif.Proofs.Eval
import Verif.Proofs.ExprMeaning
import Verif.Proofs.FirstCheck
import Verif.Proofs.Fm
import Verif.Proofs.FmChecked
import Verif.Proofs.FractionInt
import Verif.Proofs.Fragment
import Verif.Proofs.IntFraction
import Verif.Proofs.InternKeys
import Verif.Proofs.InternLoop
import Verif.Proofs.InternPoly
import Verif.Proofs.InternStore
import Verif.Proofs.InternTotal
import Verif.Proofs.InternVisit
import Verif.Proofs.Learn
import Verif.Proofs.Let
import Verif.Proofs.LexScan
import Verif.Proofs.LexToken
import Verif.Proofs.LinearConstraint
import Verif.Proofs.LinearPolynomial
import Verif.Proofs.LinearSteps
import Verif.Proofs.LinearStore
import Verif.Proofs.Literal
import Verif.Proofs.LongFraction
import Verif.Proofs.LongFractionMisc
import Verif.Proofs.LongFractionOps
import Verif.Proofs.LraAssign
import Verif.Proofs.LraBase
import Verif.Proofs.LraChecks
import Verif.Proofs.LraComp
import Verif.Proofs.LraConflict
import Verif.Proofs.LraDecide
import Verif.Proofs.LraDeduce
import Verif.Proofs.LraDerive
import Verif.Proofs.LraDomain
import Verif.Proofs.LraExample
import Verif.Proofs.LraFinish
import Verif.Proofs.LraFinishLoop
import Verif.Proofs.LraGood
import Verif.Proofs.LraImplied
import Verif.Proofs.LraInv
import Verif.Proofs.LraLive
import Verif.Proofs.LraNew
import Verif.Proofs.LraPermits
import Verif.Proofs.LraPropagate
import Verif.Proofs.LraQuiet
import Verif.Proofs.LraReach
import Verif.Proofs.LraReplace
import Verif.Proofs.LraRun
import Verif.Proofs.LraSem
import Verif.Proofs.LraStore
import Verif.Proofs.LraTimely
import Verif.Proofs.LraUnassigned
import Verif.Proofs.LraValue
import Verif.Proofs.LraWatch
import Verif.Proofs.Luby
import Verif.Proofs.Multiplicand
import Verif.Proofs.NoApp
import Verif.Proofs.OpMeaning
import Verif.Proofs.OrderMemory
import Verif.Proofs.PQueue
import Verif.Proofs.PolyMemory
import Verif.Proofs.PrintFnc
import Verif.Proofs.PrintModel
import Verif.Proofs.PrintNumber
import Verif.Proofs.PrintRead
import Verif.Proofs.PrintSem
import Verif.Proofs.PrintShown
import Verif.Proofs.QfAnalysis
import Verif.Proofs.QfCore
import Verif.Proofs.QfDerived
import Verif.Proofs.QfEnds
import Verif.Proofs.QfIter
import Verif.Proofs.QfModel
import Verif.Proofs.QfOrder
import Verif.Proofs.QfOrderRun
import Verif.Proofs.QfProgress
import Verif.Proofs.QfRun
import Verif.Proofs.QfSat
import Verif.Proofs.QfScript
import Verif.Proofs.QfSplit
import Verif.Proofs.QfStep
import Verif.Proofs.QfUnsat
import Verif.Proofs.QueueMemory
import Verif.Proofs.Reasons
import Verif.Proofs.Regex
import Verif.Proofs.Rewriter
import Verif.Proofs.Script
import Verif.Proofs.ScriptMeaning
import Verif.Proofs.ScriptModel
import Verif.Proofs.ScriptNames
import Verif.Proofs.SmtText
import Verif.Proofs.Stays
import Verif.Proofs.Std
import Verif.Proofs.Subsumption
import Verif.Proofs.SubsumptionChecked
import Verif.Proofs.TermArith
import Verif.Proofs.TermBool
import Verif.Proofs.TermChecked
import Verif.Proofs.TermOps
import Verif.Proofs.TermParser
import Verif.Proofs.TermSem
import Verif.Proofs.Terms
import Verif.Proofs.Trail
import Verif.Proofs.TrailMemory
import Verif.Proofs.TrailProgress
import Verif.Proofs.UfClause
import Verif.Proofs.UfDerived
import Verif.Proofs.UfEval
import Verif.Proofs.UfExample
import Verif.Proofs.UfHistory
import Verif.Proofs.UfKeys
import Verif.Proofs.UfLinear
import Verif.Proofs.UfLraCalls
import Verif.Proofs.UfLraEnds
import Verif.Proofs.UfLraExample
import Verif.Proofs.UfLraInv
import Verif.Proofs.UfLraIter
import Verif.Proofs.UfLraOrder
import Verif.Proofs.UfLraOrderRun
import Verif.Proofs.UfLraRun
import Verif.Proofs.UfLraScript
import Verif.Proofs.UfSat
import Verif.Proofs.UfStart
import Verif.Proofs.VarOrder
import Verif.Proofs.Visitor
import Verif.Proofs.Watch
import Verif.Proofs.Wiring
import Verif.Props.C01
import Verif.Props.C02
import Verif.Props.C03
import Verif.Props.C04
import Verif.Props.C05
import Verif.Props.C06
import Verif.Props.C07
import Verif.Props.C08
import Verif.Props.C09
import Verif.Props.C10
import Verif.Props.C11
import Verif.Props.C12
import Verif.Props.C13
import Verif.Props.C14
import Verif.Props.C15
import Verif.Props.C16
import Verif.Props.C17
import Verif.Props.C18
import Verif.Props.C19
import Verif.Props.C20
import Verif.Props.C21
import Verif.Props.C22
import Verif.Props.C23
import Verif.Props.C24
import Verif.Props.C25
import Verif.Props.C26
import Verif.Props.C27
import Verif.Props.C28
import Verif.Props.C29
import Verif.Props.C30
import Verif.Props.C31
import Verif.Props.C32
import Verif.Props.C33
import Verif.Props.C34
import Verif.Props.C35
import Verif.Props.C36
import Verif.Props.C37
import Verif.Props.C38
import Verif.Props.C39
import Verif.Props.C40
import Verif.Props.C41
import Verif.Props.C42
import Verif.Props.C43
import Verif.Props.C44
import Verif.Props.C45
import Verif.Props.C46
import Verif.Props.C47
import Verif.Props.C48
import Verif.Props.C49
import Verif.Props.C50
import Verif.Props.C51
import Verif.Props.C52
import Verif.Props.C53
import Verif.Props.C54
import Verif.Props.C55
import Verif.Props.C56
import Verif.Props.C57
import Verif.Props.C58
import Verif.Props.C59
import Verif.Props.C60
import Verif.Props.C61
import Verif.Props.C62
import Verif.Props.C63
import Verif.Props.C64
import Verif.Props.C65
import Verif.Props.C66
import Verif.Props.C67
import Verif.Props.C68
import Verif.Props.C69
import Verif.Props.C70
import Verif.Props.C71
import Verif.Props.C72
import Verif.Props.C73
import Verif.Props.C74
import Verif.Props.C75
import Verif.Props.C76
import Verif.Props.C77
import Verif.Props.C78
import Verif.Props.C79
import Verif.Props.C80
import Verif.Props.C81
import Verif.Props.C82
import Verif.Props.C83
import Verif.Props.C84
import Verif.Props.C85
import Verif.Props.C86
import Verif.Props.C87
import Verif.Props.C88
import Verif.Props.C89
import Verif.Props.C90
import Verif.Props.C91
import Verif.Props.C92
import Verif.Props.C93
import Verif.Props.C94
import Verif.Spec.Cnf
import Verif.Spec.Commands
import Verif.Spec.Decimal
import Verif.Spec.Dimacs
import Verif.Spec.Fm
import Verif.Spec.Fraction
import Verif.Spec.IntFraction
import Verif.Spec.Let
import Verif.Spec.LexToken
import Verif.Spec.Lexicon
import Verif.Spec.LinTerm
import Verif.Spec.Linear
import Verif.Spec.Linearity
import Verif.Spec.LiteralMap
import Verif.Spec.Lra
import Verif.Spec.Luby
import Verif.Spec.OneVar
import Verif.Spec.Polynomial
import Verif.Spec.QfModel
import Verif.Spec.Reasons
import Verif.Spec.Sat
import Verif.Spec.ScriptModel
import Verif.Spec.SmtLib
import Verif.Spec.SmtMain
import Verif.Spec.SmtModel
import Verif.Spec.SmtText
import Verif.Spec.StrictWeak
import Verif.Spec.Subst
import Verif.Spec.SubsumptionHistory
import Verif.Spec.Syntax
import Verif.Spec.Term
import Verif.Spec.TermDescr
import Verif.Spec.TermOps
import Verif.Spec.UfModel
import Verif.Spec.Visitor
import Verif.Spec.Wiring
