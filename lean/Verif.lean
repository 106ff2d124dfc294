import Verif.Basic
import Verif.Vec.Model
import Verif.Vec.Lemmas
import Verif.Vec.Props
import Verif.Stack.Model
import Verif.Stack.Lemmas
import Verif.Stack.Props
import Verif.Queue.Model
import Verif.Queue.Lemmas
import Verif.Queue.Props
import Verif.Probe
import Verif.HashSet.Model
import Verif.HashSet.Lemmas
import Verif.HashSet.Props
import Verif.HashMap.Model
import Verif.HashMap.Lemmas
import Verif.HashMap.Props
import Verif.Iter.Model
import Verif.Iter.Props
import Verif.OptionResult.Model
import Verif.OptionResult.Props
import Verif.Str.Model
import Verif.Str.Lemmas
import Verif.Str.Props
import Verif.Base64.Model
import Verif.Base64.Props
import Verif.Sha1.Model
import Verif.Sha1.Lemmas
import Verif.Sha1.Props
import Verif.StdArena.Model
import Verif.StdArena.Props
import Verif.Json.Model
import Verif.Json.Lemmas
import Verif.Json.Props
import Verif.Path.Model
import Verif.Path.Props
import Verif.Url.Model
import Verif.Url.Props
import Verif.WebSocket.Model
import Verif.WebSocket.Props
import Verif.Lexer.Model
import Verif.Lexer.Lemmas
import Verif.Lexer.Props
import Verif.Lexer.Tokens
import Verif.ConstFold.Model
import Verif.ConstFold.Lemmas
import Verif.ConstFold.Props
import Verif.Levenshtein.Model
import Verif.Levenshtein.Props
import Verif.Lsp.Model
import Verif.Lsp.Props
import Verif.Cmd.Model
import Verif.Cmd.Props
import Verif.CArena.Model
import Verif.CArena.Props
import Verif.Returns.Model
import Verif.Returns.Props
import Verif.Move.Model
import Verif.Move.Lemmas
import Verif.Move.Props
import Verif.Match.Model
import Verif.Match.Props
import Verif.ForRange.Model
import Verif.ForRange.Props
import Verif.Defer.Model
import Verif.Defer.Lemmas
import Verif.Defer.Sim
import Verif.Defer.Count
import Verif.Defer.Ghost
import Verif.Defer.Props
import Verif.Pratt.Model
import Verif.Pratt.Lemmas
import Verif.Pratt.Complete
import Verif.Pratt.Sound
import Verif.Pratt.Props
import Verif.StrLit.Model
import Verif.StrLit.Lemmas
import Verif.StrLit.Interp
import Verif.StrLit.Props
import Verif.StrLit.Limits
import Verif.Literals.Model
import Verif.Literals.Lemmas
import Verif.Literals.Props
import Verif.Literals.FloatModel
import Verif.Literals.FloatLemmas
import Verif.Literals.FloatProps
import Verif.TypeEq.Model
import Verif.TypeEq.Props
import Verif.BuildFlags.Model
import Verif.BuildFlags.Lemmas
import Verif.BuildFlags.Props
import Verif.Brainfuck.Model
import Verif.Brainfuck.Props
import Verif.RegexPlugin.Model
import Verif.RegexPlugin.Props
import Verif.StdRegex.Model
import Verif.StdRegex.Props
import Verif.Keywords.Model
import Verif.Keywords.Lemmas
import Verif.Keywords.Props
import Verif.Lexer.Cols
import Verif.Lexer.Strings
import Verif.Cfg.Model
import Verif.Cfg.Lemmas
import Verif.Cfg.Props
import Verif.DeclOrder.Model
import Verif.DeclOrder.Lemmas
import Verif.DeclOrder.Topo
import Verif.DeclOrder.Props
import Verif.Tuple.Model
import Verif.Tuple.Props
import Verif.Http.Model
import Verif.Http.Props
import Verif.Process.Model
import Verif.Process.Props
import Verif.Io.Model
import Verif.Io.Props
import Verif.Fs.Model
import Verif.Fs.Props
import Verif.Time.Model
import Verif.Time.Props
import Verif.Generics.Model
import Verif.Generics.Lemmas
import Verif.Generics.Props
import Verif.GenBody.Model
import Verif.GenBody.Lemmas
import Verif.GenBody.Props
import Verif.Derive.Model
import Verif.Derive.Lemmas
import Verif.Derive.Props
import Verif.Derive.JsonProps
import Verif.Closure.Model
import Verif.Closure.Lemmas
import Verif.Closure.Props
import Verif.Traits.Model
import Verif.Traits.Lemmas
import Verif.Traits.Props
import Verif.Args.Model
import Verif.Args.Props
import Verif.NumType.Model
import Verif.NumType.Props
import Verif.ExprGen.Model
import Verif.ExprGen.Props
import Verif.Index.Model
import Verif.Index.Props
import Verif.Overload.Model
import Verif.Overload.Props
import Verif.Modules.Model
import Verif.Modules.Lemmas
import Verif.Modules.Props
import Verif.Async.Model
import Verif.Async.Lemmas
import Verif.Async.Sim
import Verif.Async.Steps
import Verif.Async.Props
import Verif.Opaque.Model
import Verif.Opaque.Lemmas
import Verif.Opaque.Bodies
import Verif.Opaque.Props
import Verif.Mixin.Model
import Verif.Mixin.Lemmas
import Verif.Mixin.Props
import Verif.Destruct.Model
import Verif.Destruct.Lemmas
import Verif.Destruct.Props
import Verif.LspNav.Model
import Verif.LspNav.Lemmas
import Verif.LspNav.Index
import Verif.LspNav.Requests
import Verif.LspNav.Props
import Verif.Semantic.Model
import Verif.Semantic.Props
import Verif.Befunge.Model
import Verif.Befunge.Props
import Verif.TypeCheck.Model
import Verif.TypeCheck.Lemmas
import Verif.TypeCheck.Props
import Verif.Driver.Model
import Verif.Driver.Lemmas
import Verif.Driver.Props
import Verif.Thread.Model
import Verif.Thread.Lemmas
import Verif.Thread.Counter
import Verif.Thread.Tidy
import Verif.Thread.Props
import Verif.CJson.Model
import Verif.CJson.Str
import Verif.CJson.Num
import Verif.CJson.Val
import Verif.CJson.Props
import Verif.Asm.Model
import Verif.Asm.Lemmas
import Verif.Asm.Emit
import Verif.Asm.Props
import Verif.LineEdit.Model
import Verif.LineEdit.Lemmas
import Verif.LineEdit.Keys
import Verif.LineEdit.Props
import Verif.Repl.Model
import Verif.Repl.Lemmas
import Verif.Repl.Props
import Verif.Repl.Text
import Verif.InitLit.Model
import Verif.InitLit.Props
import Verif.Forth.Model
import Verif.Forth.Lemmas
import Verif.Forth.Props
import Verif.Forth.Defs
import Verif.Lisp.Model
import Verif.Lisp.Reader
import Verif.Lisp.Props
import Verif.Lisp.Limits
import Verif.CHeader.Model
import Verif.CHeader.Lines
import Verif.CHeader.Props
import Verif.CHeader.Limits
import Verif.Sql.Model
import Verif.Sql.Props
import Verif.Sql.Limits
import Verif.Plugin.Model
import Verif.Plugin.Props
import Verif.Comptime.Model
import Verif.Comptime.Props
import Verif.MatchExpr.Model
import Verif.MatchExpr.Props
import Verif.MatchExpr.Values
import Verif.TypeParse.Model
import Verif.TypeParse.Lemmas
import Verif.TypeParse.Props
import Verif.TypeParse.Limits
import Verif.TypeParse.Lit
import Verif.Complete.Model
import Verif.Complete.Props
import Verif.Complete.Limits
import Verif.Input.Model
import Verif.Input.Props
import Verif.Input.Limits
import Verif.Highlight.Model
import Verif.Highlight.Props
import Verif.Highlight.Screen
import Verif.Highlight.Limits
import Verif.Diag.Model
import Verif.Diag.Props
import Verif.Diag.Limits
import Verif.DropGlue.Model
import Verif.DropGlue.Props
import Verif.DropGlue.Limits
import Verif.Net.Model
import Verif.Net.Props
import Verif.CJsonList.Model
import Verif.CJsonList.Lemmas
import Verif.CJsonList.Props
import Verif.GenCall.Model
import Verif.GenCall.Props
import Verif.GenCall.Limits
import Verif.GenImpl.Model
import Verif.GenImpl.Props
import Verif.GenImpl.Limits
import Verif.GenScope.Model
import Verif.GenScope.Props
import Verif.IfExpr.Model
import Verif.IfExpr.Props
import Verif.CDecl.Model
import Verif.CDecl.Props
import Verif.JsonOwn.Model
import Verif.JsonOwn.Props
import Verif.StdRegex.Find
import Verif.EvalOrder.Model
import Verif.EvalOrder.Props
import Verif.CJsonBuf.Model
import Verif.CJsonBuf.Props
import Verif.WinArgs.Model
import Verif.WinArgs.Props
import Verif.Undef.Model
import Verif.Undef.Props
import Verif.DeferIt.Model
import Verif.DeferIt.Props
import Verif.ClosureOwn.Model
import Verif.ClosureOwn.Props
import Verif.Json.Read
import Verif.LambdaHead.Model
import Verif.LambdaHead.Props
import Verif.StdMem.Model
import Verif.StdMem.Props
import Verif.RawBlock.Model
import Verif.RawBlock.Props
import Verif.Attrs.Model
import Verif.Attrs.Props
import Verif.Env.Model
import Verif.Env.Props
import Verif.Alias.Model
import Verif.Alias.Props
import Verif.SizeOf.Model
import Verif.SizeOf.Props
import Verif.MoveClosure.Model
import Verif.MoveClosure.Props
import Verif.LinkCmd.Model
import Verif.LinkCmd.Props
import Verif.Vector.Model
import Verif.Vector.Props
import Verif.AutoImport.Model
import Verif.AutoImport.Props
import Verif.ImplScope.Model
import Verif.ImplScope.Props
import Verif.TupleReturn.Model
import Verif.TupleReturn.Props
import Verif.ArrowType.Model
import Verif.ArrowType.Props
import Verif.Literals.Suffix
import Verif.Reflect.Model
import Verif.Reflect.Props
import Verif.LoadFile.Model
import Verif.LoadFile.Props
import Verif.LspStale.Model
import Verif.LspStale.Props
import Verif.LspScan.Model
import Verif.LspScan.Props
import Verif.ZenTip.Model
import Verif.ZenTip.Props
