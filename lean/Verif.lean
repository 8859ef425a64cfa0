import Verif.RtList.Props
import Verif.MemPool.Props
import Verif.LocTable.Props
import Verif.TokStream.Props
import Verif.Alloc.Props
import Verif.BitArr.Props
import Verif.Utf.Props
import Verif.CharSet.Props
import Verif.CharSet.DispatchProps
import Verif.Auto.NfaProps
import Verif.Auto.DfaProps
import Verif.Lexer.Props
import Verif.Auto.RxProps
import Verif.Auto.LengthProps
import Verif.Lexer.LookaheadProps
import Verif.Enc.Utf8Props
import Verif.Enc.Utf16Props
import Verif.Enc.FixedProps
import Verif.Enc.WordProps
import Verif.Text.Props
import Verif.Grammar.SymProps
import Verif.Grammar.BnfProps
import Verif.Grammar.FirstProps
import Verif.Grammar.Rewrite
import Verif.Grammar.FollowProps
import Verif.Gen.Props
import Verif.Gen.CompleteProps
import Verif.Check.InlineProps
import Verif.Check.ConflictProps
import Verif.Check.ParserProps
import Verif.Check.SymbolProps
import Verif.Main.CheckProps
import Verif.Main.Props
import Verif.Tables.Props
import Verif.Clone.Props
import Verif.Ops.Props
import Verif.GLex.TokenProps
import Verif.Vars.TreeProps
import Verif.Vars.DeclProps
import Verif.Visit.Props
import Verif.Read.Props
import Verif.Syntax.Props
import Verif.LexSyn.Props
import Verif.Unidata.Props
import Verif.LexFile.Props
import Verif.Whole.FileProps
import Verif.Front.FileProps
import Verif.Top.Props
import Verif.Front.LookProps
import Verif.Top.LookProps
import Verif.Out.Props
import Verif.Out.Closed
import Verif.Literal.Props
import Verif.OpRule.Props
import Verif.VisGen.Props
import Verif.Out.NewProps
import Verif.Syntax.Keywords
import Verif.GenText.Props
import Verif.GenText.ScopeProps
import Verif.Gen.ReturnProps
import Verif.Whole.ReturnProps
import Verif.Front.ReturnProps
import Verif.Gen.LookProps
