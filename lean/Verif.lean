import Verif.Model.SyntaxKind
import Verif.Model.TokenSet
import Verif.Model.BindingPowers
import Verif.Model.Parser
import Verif.Model.Grammar
import Verif.Props.TokenSet
import Verif.Spec.PTree
import Verif.Spec.LuaGrammar
import Verif.Proof.Frame
import Verif.Proof.FrameSim
import Verif.Proof.Process
import Verif.Proof.GrammarSpecStmt
import Verif.Proof.ParseMain
import Verif.Proof.Complete7
import Verif.Proof.Eval
import Verif.Props.Parse
import Verif.Model.Text
import Verif.Model.Accept
import Verif.Model.Lexer
import Verif.Proof.TextLemmas
import Verif.Proof.LexerForms
import Verif.Proof.LexerSuffix
import Verif.Proof.Lexemes
import Verif.Spec.LuaLexical
import Verif.Props.Accept
import Verif.Props.Lexer
import Verif.Props.LexerStrings
import Verif.Props.LexerLong
import Verif.Props.LexerWords
import Verif.Props.LexerRelex
import Verif.Model.Sink
import Verif.Proof.SinkProof
import Verif.Proof.ParseText
import Verif.Spec.TreeShape
import Verif.Props.ParseText
import Verif.Model.Validation
import Verif.Proof.ValidationProof
import Verif.Proof.Decide
import Verif.Props.Validation
import Verif.Model.TextEdit
import Verif.Spec.Edits
import Verif.Proof.TextEditProof
import Verif.Props.TextEdit
import Verif.Model.LineIndex
import Verif.Spec.Positions
import Verif.Proof.LineIndexProof
import Verif.Proof.LspProof
import Verif.Props.LineIndex
import Verif.Model.Vfs
import Verif.Spec.FileStore
import Verif.Proof.VfsProof
import Verif.Props.Vfs
import Verif.Model.Diagnostics
import Verif.Spec.DiagnosticLog
import Verif.Proof.DiagnosticsProof
import Verif.Props.Diagnostics
import Verif.Model.Config
import Verif.Model.Server
import Verif.Proof.ServerVfs
import Verif.Proof.ServerInv
import Verif.Spec.Client
import Verif.Proof.ServerStep
import Verif.Proof.ServerEvents
import Verif.Proof.ServerRun
import Verif.Proof.ServerRequests
import Verif.Proof.ServerTotal
import Verif.Proof.ServerDiag
import Verif.Props.Server
import Verif.Spec.Precedences
import Verif.Props.BindingPowers
import Verif.Model.Paths
import Verif.Spec.PathSpec
import Verif.Props.Paths
import Verif.Model.Loader
import Verif.Spec.LuaFiles
import Verif.Props.Loader
import Verif.Model.Red
import Verif.Model.Ptr
import Verif.Spec.Walk
import Verif.Proof.WalkProof
import Verif.Props.Walk
import Verif.Model.Reparse
import Verif.Proof.TreeContext
import Verif.Proof.ReparseProof
import Verif.Proof.BlockSwap
import Verif.Proof.BlockPlace
import Verif.Props.Reparse
import Verif.Model.AstNodes
import Verif.Model.AstCast
import Verif.Model.Ast
import Verif.Model.ItemTree
import Verif.Spec.Productions
import Verif.Proof.Productions
import Verif.Proof.AstProof
import Verif.Spec.Spelling
import Verif.Spec.Reads
import Verif.Props.Spelling
import Verif.Props.Reads
import Verif.Props.Ast
import Verif.Props.AstMore
import Verif.Props.AstExpr
import Verif.Props.AstExamples
import Verif.Props.PtrExact
import Verif.Props.ItemTree
import Verif.Props.AstCast
import Verif.Props.ReparseErrors
import Verif.Props.ErrorMessages
import Verif.Props.Accepted
import Verif.Spec.Complaints
import Verif.Props.Complaints
import Verif.Spec.Grouping
import Verif.Props.Grouping
import Verif.Props.Trivia
import Verif.Spec.ServerPositions
import Verif.Props.ServerPositions
import Verif.Spec.Fatal
import Verif.Props.Fatal
import Verif.Props.Steps
import Verif.Spec.Steps
import Verif.Spec.Depth
import Verif.Props.Depth
import Verif.Spec.ClientView
import Verif.Props.ClientView
import Verif.Spec.Reparsing
import Verif.Props.ReparseExact
import Verif.Spec.Stability
import Verif.Props.Stability
import Verif.Props.Joining
import Verif.Props.Workspace
import Verif.Props.Viable
import Verif.Spec.Recovery
import Verif.Proof.Recovery
import Verif.Proof.RecoveryGrammar
import Verif.Props.Recovery
import Verif.Model.Session
import Verif.Spec.Session
import Verif.Props.Session
import Verif.Props.HashOrder
import Verif.Props.Tolerant
import Verif.Props.Parts
import Verif.Props.Markers
import Verif.Props.Locks
import Verif.Props.Threads
import Verif.Spec.ItemIds
import Verif.Props.ItemIds
import Verif.Props.PtrAll
import Verif.Props.LexerCost
import Verif.Spec.Faults
import Verif.Props.Faults
import Verif.Spec.Reports
import Verif.Props.Reports
import Verif.Model.KindClasses
import Verif.Props.KindClasses
import Verif.Model.Codegen
import Verif.Model.CodegenData
import Verif.Spec.Codegen
import Verif.Props.Codegen
import Verif.Spec.Conformance
import Verif.Props.Conformance
import Verif.Props.Screen
import Verif.Spec.Exchange
import Verif.Spec.Pasting
import Verif.Spec.Alone
import Verif.Props.Exchange
import Verif.Proof.NodeSwap
import Verif.Proof.NodePlace
import Verif.Proof.Pasting
import Verif.Props.Pasting
import Verif.Props.Alone
import Verif.Spec.Wrapping
import Verif.Proof.NodeWrap
import Verif.Proof.WrapPlace
import Verif.Proof.WrapChecks
import Verif.Props.Wrapping
import Verif.Props.Inlining
import Verif.Props.InnerItems
import Verif.Props.Manual
import Verif.Props.LexerAgree
import Verif.Props.Uri
import Verif.Props.StripPrefix
import Verif.Spec.Nesting
import Verif.Proof.Nesting
import Verif.Props.Nesting
import Verif.Props.ClientPositions
import Verif.Spec.Inlining
import Verif.Proof.NodePut
import Verif.Proof.PutPlace
import Verif.Proof.PutChecks
import Verif.Proof.PutLex
import Verif.Props.Placing
import Verif.Spec.Qualifying
import Verif.Proof.NodePrim
import Verif.Props.Qualifying
