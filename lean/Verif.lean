import Verif.Basic.Sink
import Verif.Model.Json
import Verif.Spec.Json
import Verif.Proofs.Json
import Verif.Proofs.JsonExact
import Verif.Props.Json
import Verif.Model.JsonRead
import Verif.Spec.JsonRead
import Verif.Proofs.Utf8
import Verif.Proofs.JsonRead
import Verif.Props.JsonRead
import Verif.Model.Css
import Verif.Spec.Css
import Verif.Proofs.CssLex
import Verif.Proofs.CssItems
import Verif.Proofs.CssContent
import Verif.Proofs.CssShow
import Verif.Spec.CssBlanks
import Verif.Proofs.CssMarks
import Verif.Proofs.CssClean
import Verif.Proofs.CssOut
import Verif.Proofs.CssIdem
import Verif.Proofs.CssCalm
import Verif.Proofs.CssSize
import Verif.Props.Css
import Verif.Props.CssBlanks
import Verif.Model.JsToken
import Verif.Model.JsLex
import Verif.Model.JsTools
import Verif.Spec.Js
import Verif.Proofs.JsTerm
import Verif.Proofs.JsLoops
import Verif.Proofs.JsSim
import Verif.Spec.JsOut
import Verif.Proofs.JsShape
import Verif.Proofs.JsOut
import Verif.Proofs.JsRelex
import Verif.Props.JsLex
import Verif.Props.JsTokens
import Verif.Spec.JsText
import Verif.Proofs.JsSpell
import Verif.Proofs.JsRead
import Verif.Proofs.JsSize
import Verif.Props.JsMinify
import Verif.Model.JsAgg
import Verif.Spec.JsAgg
import Verif.Proofs.JsAgg
import Verif.Proofs.JsAggSize
import Verif.Props.JsAgg
import Verif.Proofs.JsArr
import Verif.Proofs.JsArrRead
import Verif.Props.JsArr
import Verif.Model.Cli
import Verif.Spec.Cli
import Verif.Spec.CliRun
import Verif.Proofs.CliPath
import Verif.Proofs.CliFs
import Verif.Proofs.CliMake
import Verif.Props.Cli
import Verif.Model.Html
import Verif.Spec.Html
import Verif.Proofs.HtmlRe
import Verif.Proofs.HtmlComments
import Verif.Proofs.HtmlSpace
import Verif.Proofs.HtmlTags
import Verif.Proofs.HtmlShrink
import Verif.Proofs.HtmlPlain
import Verif.Props.Html
import Verif.Spec.HtmlTag
import Verif.Spec.HtmlPage
import Verif.Proofs.HtmlAttr
import Verif.Proofs.HtmlPage
import Verif.Proofs.HtmlCheck
import Verif.Proofs.HtmlType
import Verif.Proofs.HtmlPre
import Verif.Proofs.HtmlSoft
import Verif.Spec.HtmlInline
import Verif.Proofs.EcmaSoft
import Verif.Proofs.CssSoft
import Verif.Proofs.HtmlInline
import Verif.Props.HtmlTag
import Verif.Spec.HtmlSettled
import Verif.Proofs.HtmlQuotes
import Verif.Proofs.HtmlThin
import Verif.Proofs.HtmlUntype
import Verif.Proofs.HtmlAgain
import Verif.Props.HtmlAgain
import Verif.Spec.CssSyntax
import Verif.Proofs.CssSyntax
import Verif.Proofs.CssSame
import Verif.Proofs.CssSource
import Verif.Proofs.CssTokens
import Verif.Props.CssTokens
import Verif.Spec.Ecma
import Verif.Spec.EcmaLines
import Verif.Proofs.Ecma
import Verif.Proofs.EcmaParts
import Verif.Proofs.EcmaLaid
import Verif.Props.JsEcma
import Verif.Props.JsLines
import Verif.Spec.JsAggText
import Verif.Proofs.JsAggText
import Verif.Proofs.JsAggShow
import Verif.Props.JsAggText
import Verif.Spec.JsArrText
import Verif.Proofs.JsArrText
import Verif.Props.JsArrText
import Verif.Tests.Css
import Verif.Tests.Html
import Verif.Tests.Json
import Verif.Tests.JsonRead
import Verif.Tests.JsTools
import Verif.Tests.JsToken
import Verif.Tests.JsUtils
import Verif.Spec.JsKeep
import Verif.Proofs.JsKeep
import Verif.Props.JsKeep
import Verif.Props.JsKeepLines
import Verif.Spec.CliMeaning
import Verif.Proofs.JsonUnique
import Verif.Props.CliMeaning
import Verif.Spec.HtmlMinimal
import Verif.Proofs.HtmlMinimal
import Verif.Props.HtmlMinimal
import Verif.Spec.EcmaHashbang
import Verif.Proofs.EcmaHashbang
import Verif.Props.JsHashbang
import Verif.Spec.Again
import Verif.Proofs.HtmlSettle
import Verif.Props.HtmlSettle
import Verif.Proofs.CssSettle
import Verif.Props.CssSettle
import Verif.Proofs.JsBig
import Verif.Proofs.JsGrow
import Verif.Proofs.JsSquare
import Verif.Props.JsGrow
import Verif.Proofs.JsAggTwice
import Verif.Props.JsAggTwice
import Verif.Proofs.JsArrTwice
import Verif.Props.JsArrTwice
import Verif.Proofs.JsArrAgain
import Verif.Props.JsArrAgain
import Verif.Proofs.JsAggAgain
import Verif.Proofs.JsAggReread
import Verif.Props.JsAggAgain
import Verif.Proofs.JsAggOrder
import Verif.Props.JsAggOrder
import Verif.Proofs.JsArrOrder
import Verif.Props.JsArrOrder
import Verif.Spec.JsRename
import Verif.Proofs.JsRename
import Verif.Props.JsRename
import Verif.Props.JsVerbatim
import Verif.Spec.HtmlBlanks
import Verif.Proofs.HtmlBlanks
import Verif.Proofs.HtmlNames
import Verif.Proofs.HtmlJoined
import Verif.Proofs.HtmlClose
import Verif.Proofs.HtmlFair
import Verif.Proofs.HtmlAgainPre
import Verif.Proofs.HtmlAgainIff
import Verif.Proofs.HtmlTwice
import Verif.Props.HtmlTwice
import Verif.Proofs.HtmlStrewn
import Verif.Spec.HtmlTidy
import Verif.Proofs.HtmlTidy
import Verif.Props.HtmlStrewn
import Verif.Proofs.HtmlExact
import Verif.Props.HtmlExact
import Verif.Proofs.HtmlExactPre
import Verif.Props.HtmlExactPre
import Verif.Props.HtmlBlanks
