import Verif.GlobProps
import Verif.SetProps
import Verif.FlagsProps
import Verif.FlagsDeliver
import Verif.FunctionModel
import Verif.FunctionProps
import Verif.MimeProps
import Verif.HeaderProps
import Verif.AddressProps
import Verif.EnvelopeProps
import Verif.VmProps
import Verif.VmLimits
import Verif.VmMessage
import Verif.ValueProps
import Verif.VmAnswers
import Verif.VmIsolation
import Verif.VmClear
import Verif.CompileTargets
import Verif.BlockCompile
import Verif.CompileAccept
import Verif.SourceProps
import Verif.SourceExamples
import Verif.ExprProps
import Verif.ExprOps
import Verif.ExprIndex
import Verif.ExprOrder
import Verif.ExprTokens
import Verif.ExprTokenLemmas
import Verif.ExprTokenProps
import Verif.ExprVm
import Verif.LexProps
import Verif.PosModel
import Verif.PosProps
import Verif.MailtoProps
import Verif.MailtoMany
import Verif.TestsProps
import Verif.TestsCount
import Verif.HeaderCount
import Verif.BodyModel
import Verif.BodyProps
import Verif.VacationModel
import Verif.VacationLemmas
import Verif.VacationProps
import Verif.VmVacation
import Verif.ScopeModel
import Verif.ScopeLemmas
import Verif.ScopeStatic
import Verif.ScopeProps
import Verif.BuildModel
import Verif.BuildLemmas
import Verif.BuildProps
import Verif.BuildEdit
import Verif.BuildActions
import Verif.BuildEnclose
import Verif.BuildReplace
import Verif.BuildSize
import Verif.BuildHeaders
import Verif.BuildInjection
import Verif.StringModel
import Verif.StringSpec
import Verif.StringLemmas
import Verif.StringPlain
import Verif.StringCodes
import Verif.StringDecode
import Verif.StringProps
import Verif.OtherTestsModel
import Verif.OtherTestsLemmas
import Verif.OtherTestsProps
import Verif.DateProps
import Verif.WordModel
import Verif.WordProps
import Verif.ArgsModel
import Verif.ArgsTable
import Verif.ArgsSpec
import Verif.ArgsLemmas
import Verif.ArgsLoop
import Verif.ArgsEntry
import Verif.ArgsProps
import Verif.FieldsModel
import Verif.FieldsSpec
import Verif.FieldsLemmas
import Verif.FieldsVars
import Verif.FieldsProps
import Verif.EventModel
import Verif.EventProps
import Verif.DisplayModel
import Verif.DisplayProps
import Verif.BaseSpec
import Verif.BaseLemmas
import Verif.BaseSim
import Verif.BaseProps
import Verif.BaseUntouched
import Verif.ArgsUsage
import Verif.ScriptModel
import Verif.ScriptSpec
import Verif.ScriptScope
import Verif.ScriptLemmas
import Verif.ScriptSteps
import Verif.ScriptProps
import Verif.CompileOrder
import Verif.TextProps
import Verif.HvarProps
import Verif.HvarEval
import Verif.HvarParts
import Verif.NotifyModel
import Verif.NotifyProps
import Verif.NotifyFrom
import Verif.ConvertModel
import Verif.ConvertProps
import Verif.StoreModel
import Verif.StoreProps
import Verif.WholeProps
import Verif.CompileForward
import Verif.CompileDepth
import Verif.AssertProps
import Verif.ScopeClear
import Verif.MatchVarModel
import Verif.MatchVarSpec
import Verif.MatchVarLemmas
import Verif.MatchVarProps
import Verif.ModifierProps
import Verif.LexNumber
import Verif.RequireProps
import Verif.VarLimit
import Verif.WrittenModel
import Verif.WrittenProps
import Verif.WrittenOtherModel
import Verif.WrittenOtherProps
import Verif.WrittenActionModel
import Verif.WrittenActionProps
import Verif.CoreModel
import Verif.CoreSpec
import Verif.CoreProps
import Verif.CoreUnique
import Verif.CoreExamples
import Verif.VarsModel
import Verif.VarsSpec
import Verif.VarsProps
import Verif.VarsUnique
import Verif.VarsScope
import Verif.VarsExamples
import Verif.LangSpec
import Verif.LangProps
import Verif.FlagLangModel
import Verif.FlagLangSpec
import Verif.FlagLangProps
import Verif.FlagLangUnique
import Verif.AskLangModel
import Verif.AskLangSpec
import Verif.AskLangProps
import Verif.AskLangExamples
import Verif.MailLangModel
import Verif.MailLangSpec
import Verif.MailLangProps
import Verif.MailLangExamples
import Verif.EditLangModel
import Verif.EditLangSpec
import Verif.EditLangProps
import Verif.EditLangExamples
import Verif.FlagLangExamples
