import Verif.Calc.Lex
import Verif.Calc.Model
import Verif.Calc.Number
import Verif.Calc.Proof
import Verif.Calc.Spec
import Verif.Calc.Table
import Verif.Common.OSet
import Verif.Common.Ord
import Verif.Macro.Read
import Verif.Macro.ReadProof
import Verif.Macro.Syn
import Verif.Macro.Text
import Verif.Par.AbsProof
import Verif.Par.ActProof
import Verif.Par.AmortProof
import Verif.Par.Automata
import Verif.Par.AutomataProof
import Verif.Par.BisimProof
import Verif.Par.CanonProof
import Verif.Par.Chosen
import Verif.Par.ChosenProof
import Verif.Par.ClosureProof
import Verif.Par.Contract
import Verif.Par.ContractProof
import Verif.Par.Damage
import Verif.Par.DamageProof
import Verif.Par.Effects
import Verif.Par.EffectsPlay
import Verif.Par.EffectsProof
import Verif.Par.EffectsValues
import Verif.Par.Embed
import Verif.Par.EmbedAug
import Verif.Par.EmbedMach
import Verif.Par.EmbedProof
import Verif.Par.EndsProof
import Verif.Par.Eq
import Verif.Par.EqNew
import Verif.Par.EqProof
import Verif.Par.ExpProof
import Verif.Par.Family
import Verif.Par.FamilyCheck
import Verif.Par.FamilyProof
import Verif.Par.Finish
import Verif.Par.FirstProof
import Verif.Par.FuelProof
import Verif.Par.FullProof
import Verif.Par.Gen
import Verif.Par.GenProof
import Verif.Par.GiveUp
import Verif.Par.GotoProof
import Verif.Par.GramProof
import Verif.Par.Grammar
import Verif.Par.Height
import Verif.Par.HeightProof
import Verif.Par.Inline
import Verif.Par.InlineProof
import Verif.Par.InlineTree
import Verif.Par.InvProof
import Verif.Par.Keep
import Verif.Par.KeepMain
import Verif.Par.KeepProof
import Verif.Par.LL1
import Verif.Par.LL1Check
import Verif.Par.LL1Proof
import Verif.Par.LastMain
import Verif.Par.LastProof
import Verif.Par.Lasting
import Verif.Par.Like
import Verif.Par.LikeProof
import Verif.Par.LinearProof
import Verif.Par.LrSpec
import Verif.Par.MachProof
import Verif.Par.Machine
import Verif.Par.MapProof
import Verif.Par.Moves
import Verif.Par.NewProof
import Verif.Par.NodupProof
import Verif.Par.Ops
import Verif.Par.OpsAlong
import Verif.Par.OpsProof
import Verif.Par.OpsRot
import Verif.Par.OpsTable
import Verif.Par.Parse
import Verif.Par.PartProof
import Verif.Par.Parts
import Verif.Par.Pieces
import Verif.Par.PiecesProof
import Verif.Par.Pipe
import Verif.Par.PipeProof
import Verif.Par.Plug
import Verif.Par.PlugProof
import Verif.Par.Prec
import Verif.Par.PrecProof
import Verif.Par.PrecTable
import Verif.Par.Pump
import Verif.Par.QuadProof
import Verif.Par.RecMain
import Verif.Par.RecTerm
import Verif.Par.RenProof
import Verif.Par.Report
import Verif.Par.ReportProof
import Verif.Par.Residue
import Verif.Par.Rightmost
import Verif.Par.RmGram
import Verif.Par.RmProof
import Verif.Par.SettleMain
import Verif.Par.SettleProof
import Verif.Par.Settled
import Verif.Par.Shared
import Verif.Par.SharedAll
import Verif.Par.SharedInv
import Verif.Par.SharedProof
import Verif.Par.SharedRound
import Verif.Par.Show
import Verif.Par.SimProof
import Verif.Par.SizeProof
import Verif.Par.SoundProof
import Verif.Par.Source
import Verif.Par.SourceProof
import Verif.Par.SrcProof
import Verif.Par.StackProof
import Verif.Par.Stmt
import Verif.Par.StmtCover
import Verif.Par.StmtMain
import Verif.Par.StmtProof
import Verif.Par.StmtRun
import Verif.Par.Stop
import Verif.Par.StopMain
import Verif.Par.Syntax
import Verif.Par.TableProof
import Verif.Par.Tables
import Verif.Par.TermProof
import Verif.Par.TestErr
import Verif.Par.TestMain
import Verif.Par.TestMainProof
import Verif.Par.Tidy
import Verif.Par.TidyProof
import Verif.Par.Trace
import Verif.Par.TraceMain
import Verif.Par.TraceProof
import Verif.Par.TreeProof
import Verif.Par.Trees
import Verif.Par.UpperMain
import Verif.Par.UpperProof
import Verif.Par.Used
import Verif.Par.UsedProof
import Verif.Par.WarnProof
import Verif.Par.WarnTimes
import Verif.Props.Calc
import Verif.Props.Layout
import Verif.Props.MacroText
import Verif.Props.Nesting
import Verif.Props.ParAutomata
import Verif.Props.ParCheck
import Verif.Props.ParChosen
import Verif.Props.ParComplete
import Verif.Props.ParContract
import Verif.Props.ParDamage
import Verif.Props.ParDamageStm
import Verif.Props.ParEdit
import Verif.Props.ParEffects
import Verif.Props.ParEmbed
import Verif.Props.ParEnds
import Verif.Props.ParEq
import Verif.Props.ParExp
import Verif.Props.ParFamily
import Verif.Props.ParFinish
import Verif.Props.ParFirst
import Verif.Props.ParGen
import Verif.Props.ParGiveUp
import Verif.Props.ParHeight
import Verif.Props.ParInline
import Verif.Props.ParKeep
import Verif.Props.ParLL1
import Verif.Props.ParLasting
import Verif.Props.ParLike
import Verif.Props.ParLinear
import Verif.Props.ParMachine
import Verif.Props.ParOps
import Verif.Props.ParPart
import Verif.Props.ParParts
import Verif.Props.ParPieces
import Verif.Props.ParPlay
import Verif.Props.ParPlug
import Verif.Props.ParPrec
import Verif.Props.ParPump
import Verif.Props.ParReject
import Verif.Props.ParReport
import Verif.Props.ParResidue
import Verif.Props.ParRightmost
import Verif.Props.ParRun
import Verif.Props.ParSeeds
import Verif.Props.ParSettled
import Verif.Props.ParShared
import Verif.Props.ParShow
import Verif.Props.ParSize
import Verif.Props.ParSource
import Verif.Props.ParStmt
import Verif.Props.ParStop
import Verif.Props.ParSyntax
import Verif.Props.ParTables
import Verif.Props.ParTestErr
import Verif.Props.ParTrace
import Verif.Props.ParUpper
import Verif.Props.ParUsed
import Verif.Props.Pipe
import Verif.Props.PipeSource
import Verif.Props.Places
import Verif.Props.TokAgree
import Verif.Props.TokAhead
import Verif.Props.TokBuild
import Verif.Props.TokCode
import Verif.Props.TokEdit
import Verif.Props.TokGen
import Verif.Props.TokHeap
import Verif.Props.TokIter
import Verif.Props.TokJoin
import Verif.Props.TokKleene
import Verif.Props.TokLike
import Verif.Props.TokMap
import Verif.Props.TokOrder
import Verif.Props.TokPtr
import Verif.Props.TokPump
import Verif.Props.TokRead
import Verif.Props.TokRewrite
import Verif.Props.TokShort
import Verif.Props.TokShow
import Verif.Props.TokSize
import Verif.Props.TokSmooth
import Verif.Props.TokSource
import Verif.Props.TokUnion
import Verif.Props.TokUnique
import Verif.Props.TokWords
import Verif.Replay.Par
import Verif.Replay.Tok
import Verif.Tok.Agree
import Verif.Tok.Ahead
import Verif.Tok.AheadProof
import Verif.Tok.Builder
import Verif.Tok.BuilderProof
import Verif.Tok.Code
import Verif.Tok.CodeProof
import Verif.Tok.Dfa
import Verif.Tok.DfaProof
import Verif.Tok.DfaProof2
import Verif.Tok.DfaProof3
import Verif.Tok.DfaSem
import Verif.Tok.Gen
import Verif.Tok.GenProof
import Verif.Tok.Heap
import Verif.Tok.HeapAll
import Verif.Tok.HeapBuild
import Verif.Tok.HeapDfa
import Verif.Tok.HeapProof
import Verif.Tok.HeapProof2
import Verif.Tok.Hir
import Verif.Tok.Iter
import Verif.Tok.IterProof
import Verif.Tok.Kleene
import Verif.Tok.Layout
import Verif.Tok.LayoutProof
import Verif.Tok.Live
import Verif.Tok.LiveProof
import Verif.Tok.MapState
import Verif.Tok.MapStateProof
import Verif.Tok.MinProof
import Verif.Tok.MinWeak
import Verif.Tok.Nfa
import Verif.Tok.NfaMain
import Verif.Tok.NfaProof
import Verif.Tok.NfaProof2
import Verif.Tok.NfaSem
import Verif.Tok.Ptr
import Verif.Tok.PtrAll
import Verif.Tok.PtrMin
import Verif.Tok.PtrNew
import Verif.Tok.PtrProof
import Verif.Tok.PtrSub
import Verif.Tok.Rewrite
import Verif.Tok.RewriteProof
import Verif.Tok.Show
import Verif.Tok.Size
import Verif.Tok.SizeProof
import Verif.Tok.Smooth
import Verif.Tok.SmoothProof
import Verif.Tok.Source
import Verif.Tok.SourceProof
import Verif.Tok.Spec
import Verif.Tok.SpecProof
import Verif.Tok.Words
import Verif.Tok.WordsProof
