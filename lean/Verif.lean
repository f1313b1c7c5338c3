import Verif.Lemmas.Bench
import Verif.Lemmas.Bytes
import Verif.Lemmas.CapAny
import Verif.Lemmas.CapFit
import Verif.Lemmas.CapSet
import Verif.Lemmas.Caps
import Verif.Lemmas.ClassLoad
import Verif.Lemmas.ClassTable
import Verif.Lemmas.ClassText
import Verif.Lemmas.CodePage
import Verif.Lemmas.Commands
import Verif.Lemmas.DicDump
import Verif.Lemmas.DicLines
import Verif.Lemmas.Dict
import Verif.Lemmas.Dump
import Verif.Lemmas.DumpLicense
import Verif.Lemmas.EngApi
import Verif.Lemmas.EngBuild
import Verif.Lemmas.EngForms
import Verif.Lemmas.EngLemm
import Verif.Lemmas.EngScan
import Verif.Lemmas.EngState
import Verif.Lemmas.EngText
import Verif.Lemmas.EngTwo
import Verif.Lemmas.EngView
import Verif.Lemmas.EngWild
import Verif.Lemmas.EngWildScan
import Verif.Lemmas.FormRun
import Verif.Lemmas.FuzzyApi
import Verif.Lemmas.FuzzyCaps
import Verif.Lemmas.FuzzyCommands
import Verif.Lemmas.FuzzyForms
import Verif.Lemmas.FuzzyLemm
import Verif.Lemmas.FuzzyMap
import Verif.Lemmas.FuzzyPage
import Verif.Lemmas.FuzzyPageFinish
import Verif.Lemmas.FuzzyPageForms
import Verif.Lemmas.FuzzyPageRun
import Verif.Lemmas.FuzzyScan
import Verif.Lemmas.FuzzyTree
import Verif.Lemmas.History
import Verif.Lemmas.Hits
import Verif.Lemmas.Holes
import Verif.Lemmas.HolesPrint
import Verif.Lemmas.Ich
import Verif.Lemmas.ImageBytes
import Verif.Lemmas.Json
import Verif.Lemmas.Lemm
import Verif.Lemmas.LemmEnd
import Verif.Lemmas.Letters
import Verif.Lemmas.Lid
import Verif.Lemmas.LidScan
import Verif.Lemmas.MakeClasses
import Verif.Lemmas.MakeMap
import Verif.Lemmas.MakeMerge
import Verif.Lemmas.MakePlans
import Verif.Lemmas.Mix
import Verif.Lemmas.Order
import Verif.Lemmas.OrderLid
import Verif.Lemmas.PageForms
import Verif.Lemmas.PageLemm
import Verif.Lemmas.PageMatch
import Verif.Lemmas.Parts
import Verif.Lemmas.Past
import Verif.Lemmas.Pipeline
import Verif.Lemmas.PipelineDict
import Verif.Lemmas.PipelineForms
import Verif.Lemmas.Prune
import Verif.Lemmas.Psp
import Verif.Lemmas.RusApi
import Verif.Lemmas.RusBounds
import Verif.Lemmas.RusForms
import Verif.Lemmas.RusFormsApi
import Verif.Lemmas.RusHead
import Verif.Lemmas.RusLemm
import Verif.Lemmas.RusLevel
import Verif.Lemmas.RusLine
import Verif.Lemmas.RusLoad
import Verif.Lemmas.RusMixText
import Verif.Lemmas.RusResolve
import Verif.Lemmas.RusSame
import Verif.Lemmas.RusScan
import Verif.Lemmas.RusState
import Verif.Lemmas.RusStrip
import Verif.Lemmas.RusTables
import Verif.Lemmas.RusText
import Verif.Lemmas.RusTwo
import Verif.Lemmas.RusWild
import Verif.Lemmas.RusWildTree
import Verif.Lemmas.ScanMachine
import Verif.Lemmas.ScanTables
import Verif.Lemmas.ScanTree
import Verif.Lemmas.Stems
import Verif.Lemmas.TabFile
import Verif.Lemmas.TabGram
import Verif.Lemmas.TabLine
import Verif.Lemmas.TabText
import Verif.Lemmas.Text
import Verif.Lemmas.Tfc
import Verif.Lemmas.TfcImage
import Verif.Lemmas.ToolText
import Verif.Lemmas.Trace
import Verif.Lemmas.Track
import Verif.Lemmas.Truncate
import Verif.Lemmas.Utf8
import Verif.Lemmas.Visits
import Verif.Lemmas.Wide
import Verif.Lemmas.WideForms
import Verif.Lemmas.WideLemm
import Verif.Lemmas.Wild
import Verif.Lemmas.WildList
import Verif.Lemmas.WildTree
import Verif.Lemmas.WildTwo
import Verif.Lemmas.WildVisits
import Verif.Lemmas.WordTree
import Verif.Lemmas.Wrapper
import Verif.Model.Bench
import Verif.Model.Bytes
import Verif.Model.Caps
import Verif.Model.CharTables
import Verif.Model.Charset
import Verif.Model.ClassTable
import Verif.Model.ClassText
import Verif.Model.CodePage
import Verif.Model.Commands
import Verif.Model.DicDump
import Verif.Model.Dump
import Verif.Model.EngBuild
import Verif.Model.EngRun
import Verif.Model.EngText
import Verif.Model.Factory
import Verif.Model.Fuzzy
import Verif.Model.FuzzyCommands
import Verif.Model.FuzzyPage
import Verif.Model.Holder
import Verif.Model.Holes
import Verif.Model.Ich
import Verif.Model.Letters
import Verif.Model.Library
import Verif.Model.LidTree
import Verif.Model.MakeClasses
import Verif.Model.Marks
import Verif.Model.Psp
import Verif.Model.Python
import Verif.Model.RusBuild
import Verif.Model.RusGram
import Verif.Model.RusRun
import Verif.Model.RusTables
import Verif.Model.RusText
import Verif.Model.RusWild
import Verif.Model.ScanTree
import Verif.Model.Session
import Verif.Model.Speed
import Verif.Model.Stems
import Verif.Model.TabText
import Verif.Model.Tfc
import Verif.Model.Tools
import Verif.Model.Wide
import Verif.Model.Wild
import Verif.Model.WordTree
import Verif.Model.Wrapper
import Verif.Props.C01
import Verif.Props.C02
import Verif.Props.C03
import Verif.Props.C04
import Verif.Props.C05
import Verif.Props.C07
import Verif.Props.C10
import Verif.Props.C11
import Verif.Props.C12Rus
import Verif.Props.C15
import Verif.Props.C19
import Verif.Props.C19Rus
import Verif.Props.C20
import Verif.Props.C23
import Verif.Props.C27
import Verif.Props.C28
import Verif.Props.C30
import Verif.Props.C30Rus
import Verif.Props.C32
import Verif.Props.C33
import Verif.Props.C35
import Verif.Props.C36
import Verif.Props.C37
import Verif.Props.C38
import Verif.Props.C40
import Verif.Props.C43
import Verif.Props.C44
import Verif.Props.C45
import Verif.Props.C46
import Verif.Props.C50
import Verif.Props.C53
import Verif.Props.C54
import Verif.Props.C55
import Verif.Props.C56
import Verif.Props.C57
import Verif.Props.C58
import Verif.Props.C59
import Verif.Props.C60
import Verif.Props.C60Cx
import Verif.Props.C61
import Verif.Props.C63
import Verif.Props.C64
import Verif.Props.C65
import Verif.Props.C65Page
import Verif.Props.C67
import Verif.Props.C67Page
import Verif.Props.C68
import Verif.Props.C68Ex
import Verif.Props.C69
import Verif.Props.C70
import Verif.Props.C70Dict
import Verif.Props.C71
import Verif.Props.C72
import Verif.Props.C73
import Verif.Props.C74
import Verif.Props.C75
import Verif.Props.C76
import Verif.Props.C77
import Verif.Props.C77Ex
import Verif.Props.C78
import Verif.Props.C78Ex
import Verif.Props.C79
import Verif.Props.C79Dump
import Verif.Props.C79Ex
import Verif.Props.C80
import Verif.Props.C80Src
import Verif.Props.C81
import Verif.Props.C81Line
import Verif.Props.C81Text
import Verif.Props.C82
import Verif.Props.C82Ex
import Verif.Props.C83
import Verif.Props.C83Eng
import Verif.Props.C83Ex
import Verif.Props.C83Wild
import Verif.Props.C83WildEng
import Verif.Props.C84
import Verif.Props.C85
import Verif.Props.C85Exact
import Verif.Props.C86
import Verif.Props.C86Page
import Verif.Props.C87
import Verif.Props.C88
import Verif.Props.C89
import Verif.Props.C89Text
import Verif.Props.C90
import Verif.Props.C91
import Verif.Props.C92
import Verif.Props.C93
import Verif.Props.C93Text
import Verif.Props.C94
import Verif.Props.C94Eng
import Verif.Props.C94Ex
import Verif.Props.C94Rus
import Verif.Props.C95
import Verif.Props.C95Pipe
import Verif.Props.C96
import Verif.Props.C96Page
import Verif.Props.C97
import Verif.Props.C97Eng
import Verif.Props.C97Page
import Verif.Props.C98
import Verif.Spec.Bench
import Verif.Spec.Caps
import Verif.Spec.ClassText
import Verif.Spec.CodePage
import Verif.Spec.Commands
import Verif.Spec.Cpp
import Verif.Spec.Crash
import Verif.Spec.DicDump
import Verif.Spec.Dict
import Verif.Spec.EngSample
import Verif.Spec.EngText
import Verif.Spec.EngWild
import Verif.Spec.English
import Verif.Spec.Entries
import Verif.Spec.Fuzzy
import Verif.Spec.FuzzyCommands
import Verif.Spec.FuzzyPage
import Verif.Spec.FuzzySample
import Verif.Spec.History
import Verif.Spec.Holder
import Verif.Spec.Holes
import Verif.Spec.Ich
import Verif.Spec.Json
import Verif.Spec.Lemm
import Verif.Spec.LemmEnd
import Verif.Spec.Letters
import Verif.Spec.Link
import Verif.Spec.MakeClasses
import Verif.Spec.MakeMap
import Verif.Spec.Order
import Verif.Spec.Pipeline
import Verif.Spec.Psp
import Verif.Spec.Python
import Verif.Spec.PythonPage
import Verif.Spec.Reports
import Verif.Spec.RusBounds
import Verif.Spec.RusFit
import Verif.Spec.RusForms
import Verif.Spec.RusGram
import Verif.Spec.RusHead
import Verif.Spec.RusLemm
import Verif.Spec.RusLevel
import Verif.Spec.RusSample
import Verif.Spec.RusTables
import Verif.Spec.RusText
import Verif.Spec.RusWild
import Verif.Spec.Russian
import Verif.Spec.Sample
import Verif.Spec.Speed
import Verif.Spec.TabText
import Verif.Spec.Tfc
import Verif.Spec.Tools
import Verif.Spec.Trie
import Verif.Spec.Utf8
import Verif.Spec.Wide
import Verif.Spec.Wild
