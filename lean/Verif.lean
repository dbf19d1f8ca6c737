import Verif.Lexer.Props1
import Verif.Lexer.Props2
import Verif.Lexer.Operators
import Verif.Lexer.Elements
import Verif.Parser.Tokenize
import Verif.Duchain.DocComment
import Verif.Duchain.DocType
import Verif.Duchain.Names
import Verif.Duchain.TypeHint
import Verif.Duchain.Include
import Verif.Duchain.CodeModel
import Verif.Duchain.Inheritance
import Verif.Duchain.Variables
import Verif.Duchain.ReturnType
import Verif.Duchain.Members
import Verif.Duchain.Traits
import Verif.Completion.MethodTokens
import Verif.Completion.ClassMember
import Verif.Completion.TokenAccess
import Verif.Completion.Kinds
import Verif.Completion.Analysis
import Verif.Completion.Expression
import Verif.Completion.Forbid
import Verif.Completion.MemberAccess
import Verif.Support.Keyword
import Verif.Support.Refactor
import Verif.Support.PhpUnit
import Verif.Support.ParseJob
import Verif.Support.Docs
import Verif.Completion.Implementation
import Verif.Completion.CallContext
import Verif.Duchain.ExprEval
import Verif.Parser.ExprGrammar
import Verif.Parser.ExprTotal
import Verif.Parser.ExprSound
import Verif.Parser.ExprComplete
import Verif.Parser.ExprProps
import Verif.Duchain.Scopes
import Verif.Duchain.ScopeNames
import Verif.Duchain.VariableScopes
import Verif.Duchain.FunctionVars
import Verif.Duchain.Parameters
import Verif.Duchain.NameUses
import Verif.Duchain.MemberDecls
import Verif.Duchain.Redeclared
import Verif.Duchain.DeclTypes
import Verif.Parser.Combinators
import Verif.Parser.StmtParts
import Verif.Parser.StmtLines
import Verif.Parser.StmtHeads
import Verif.Parser.StmtGrammar
import Verif.Parser.StmtComplete
import Verif.Parser.StmtProps
import Verif.Parser.StmtNesting
import Verif.Parser.StmtMono
import Verif.Parser.StmtClosures
import Verif.Duchain.UseStatements
import Verif.Duchain.VariableSearch
import Verif.Duchain.MemberAssign
import Verif.Completion.IncludeItem
import Verif.Completion.FileChoose
import Verif.Parser.Todo
import Verif.Duchain.Reparse
import Verif.Completion.Insert
import Verif.Completion.CallTips
import Verif.Duchain.Walk
import Verif.Duchain.Closures
import Verif.Duchain.Define
import Verif.Parser.Errors
import Verif.Duchain.MagicConstant
import Verif.Duchain.Navigation
import Verif.Support.DocsList
import Verif.Completion.Highlight
import Verif.Lexer.Lexemes
import Verif.Parser.Layout
import Verif.Duchain.TypeIdentity
import Verif.Duchain.NewReference
import Verif.Support.KeywordTable
import Verif.Lexer.Interpolated
import Verif.Parser.Sources
import Verif.Duchain.Project
import Verif.Duchain.ProjectProofs
import Verif.Duchain.ProjectHistory
import Verif.Duchain.ProjectMarks
import Verif.Duchain.ProjectExamples
import Verif.Parser.Position
import Verif.Parser.PositionProps
import Verif.Parser.PositionExamples
import Verif.Completion.NamespaceChoose
import Verif.Parser.Outline
import Verif.Parser.OutlineToks
import Verif.Parser.OutlineTypes
import Verif.Parser.OutlineFine
import Verif.Parser.OutlineStmt
import Verif.Parser.OutlineFile
import Verif.Parser.Declared
import Verif.Parser.Places
import Verif.Parser.PlacesFine
import Verif.Parser.PlacesStmt
import Verif.Parser.PlacesFile
import Verif.Parser.PlacesProps
import Verif.Duchain.StaticValue
import Verif.Parser.Ranges
import Verif.Parser.Spans
import Verif.Parser.Bodies
