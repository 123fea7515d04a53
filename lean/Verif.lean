import Verif.Props.Helper
import Verif.Props.Truncations
import Verif.Props.Glue
import Verif.Props.FullCC.Terms
import Verif.Props.FullCC.Latex
import Verif.Props.FullCC.Python
import Verif.Props.WLatex
import Verif.Props.Residual
import Verif.Props.Dt
import Verif.Props.Zhz
import Verif.Props.ZhzDoc
import Verif.Props.ET
import Verif.Props.ETPython
import Verif.Props.ETLatex
import Verif.Model.FullCC.Module
import Verif.Spec.FullCCRun
import Verif.Props.FullCC.Module
import Verif.Model.ETModule
import Verif.Spec.ETRun
import Verif.Props.ETModule
import Verif.Spec.Tensor
import Verif.Lemmas.Tensor
import Verif.Spec.WValue
import Verif.Props.WValue
import Verif.Model.Symmetrize
import Verif.Spec.Symmetrize
import Verif.Props.Symmetrize
import Verif.Spec.DtValue
import Verif.Lemmas.Contract
import Verif.Props.DtValue
import Verif.Spec.Fock
import Verif.Lemmas.Fock
import Verif.Props.Fock
import Verif.Spec.FullCCValue
import Verif.Lemmas.Chain
import Verif.Lemmas.FullCC.Value
import Verif.Props.FullCC.Value
import Verif.Spec.Wick
import Verif.Lemmas.Wick
import Verif.Lemmas.Orders
import Verif.Props.FullCC.Wick
import Verif.Props.FullCC.WickExact
import Verif.Spec.ETValue
import Verif.Lemmas.Lowering
import Verif.Lemmas.ETEinsum
import Verif.Lemmas.ETExpand
import Verif.Lemmas.ETSum
import Verif.Props.ETValue
import Verif.Spec.Source
import Verif.Spec.PyRun
import Verif.Spec.ETCall
import Verif.Lemmas.SourceLex
import Verif.Lemmas.SourceExpr
import Verif.Lemmas.SourceCode
import Verif.Lemmas.PyRun
import Verif.Lemmas.ETSource
import Verif.Lemmas.ETSourceModule
import Verif.Lemmas.ETSourceGood
import Verif.Lemmas.ETSourceRun
import Verif.Lemmas.ETSourceCall
import Verif.Props.ETText
import Verif.Spec.ResidualCall
import Verif.Model.ResidualText
import Verif.Lemmas.SourceRun
import Verif.Lemmas.ResidualSource
import Verif.Lemmas.ResidualSourceRun
import Verif.Props.ResidualText
import Verif.Model.WText
import Verif.Lemmas.SourceConst
import Verif.Lemmas.WSource
import Verif.Lemmas.WSourceFn
import Verif.Lemmas.WSourceFile
import Verif.Spec.WCall
import Verif.Lemmas.WSourceRun
import Verif.Lemmas.WSourceCall
import Verif.Lemmas.WSourceMaster
import Verif.Props.WText
import Verif.Model.DtText
import Verif.Spec.DtCall
import Verif.Lemmas.Chars
import Verif.Lemmas.DtSource
import Verif.Lemmas.DtSourceFn
import Verif.Lemmas.DtSourceFile
import Verif.Lemmas.DtSourceRun
import Verif.Lemmas.DtSourceCall
import Verif.Props.DtText
import Verif.Model.FullCC.Text
import Verif.Spec.FullCCCall
import Verif.Lemmas.FullCC.Source
import Verif.Lemmas.FullCC.SourceProgram
import Verif.Lemmas.FullCC.SourceModule
import Verif.Lemmas.FullCC.SourceFile
import Verif.Lemmas.FullCC.SourceGood
import Verif.Lemmas.FullCC.SourceRun
import Verif.Lemmas.FullCC.SourceCall
import Verif.Props.FullCC.Text
import Verif.Spec.ZhzValue
import Verif.Lemmas.ZhzValue
import Verif.Lemmas.ZhzOperator
import Verif.Lemmas.ZhzNormal
import Verif.Lemmas.ZhzUnique
import Verif.Props.ZhzValue
import Verif.Spec.PyIter
import Verif.Spec.WIter
import Verif.Lemmas.PyIter
import Verif.Lemmas.WIterRun
import Verif.Lemmas.WIterCall
import Verif.Lemmas.WIterPaths
import Verif.Lemmas.WIterMaster
import Verif.Props.WIter
import Verif.Spec.DtIter
import Verif.Lemmas.DtIterRun
import Verif.Lemmas.DtIterCall
import Verif.Lemmas.DtIterPaths
import Verif.Lemmas.DtIterSolver
import Verif.Props.DtIter
import Verif.Lemmas.ResidualHigh
import Verif.Props.ResidualHigh
import Verif.Spec.Json
import Verif.Model.TruncText
import Verif.Lemmas.Json
import Verif.Props.TruncText
import Verif.Model.Program
import Verif.Spec.Program
import Verif.Props.Program
import Verif.Model.History
import Verif.Spec.History
import Verif.Props.History
import Verif.Model.LatexText
import Verif.Spec.Latex
import Verif.Lemmas.LatexText
import Verif.Lemmas.LatexDocs
import Verif.Props.LatexText
import Verif.Model.WLatexText
import Verif.Spec.TexPower
import Verif.Props.WLatexText
