import Verif.Hash.Model
import Verif.Hash.Spec
import Verif.Hash.ModelHmac
import Verif.Hash.Props
import Verif.Hash.PropsHmac
import Verif.Hash.PropsGeneric
import Verif.Rng.PropsMix
import Verif.Rng.PropsXo
import Verif.Rng.PropsEqui
import Verif.Rng.PropsTell
import Verif.Str.Props
import Verif.Str.PropsOrder
import Verif.Str.PropsNatural
import Verif.Str.ModelWork
import Verif.Str.PropsWork
import Verif.Str.SpecWork
import Verif.Str.PropsSame
import Verif.Str.PropsScan
import Verif.Str.PropsSort
import Verif.Ffi.PropsPtr
import Verif.Ffi.PropsEndian
import Verif.Ffi.PropsMem
import Verif.Ffi.PropsAbi
import Verif.Args.Props
import Verif.Args.PropsReport
import Verif.Args.PropsHelp
import Verif.Dbus.PropsElement
import Verif.Dbus.PropsSig
import Verif.Dbus.PropsMeaning
import Verif.Dbus.PropsProblem
import Verif.Dbus.PropsEnde
import Verif.Dbus.PropsCursor
import Verif.Dbus.PropsStatic
import Verif.Dbus.PropsIter
import Verif.Dbus.PropsDvar
import Verif.Dbus.PropsFinal
import Verif.Dbus.PropsGlue
import Verif.Dbus.PropsAhead
import Verif.Dbus.PropsFinish
import Verif.Dbus.PropsDec
import Verif.Io.PropsMap
import Verif.Io.PropsStream
import Verif.Json.PropsToken
import Verif.Json.PropsAlphabet
import Verif.Json.PropsStream
import Verif.Json.PropsBytes
import Verif.Bin.PropsLayout
import Verif.Bin.PropsSum
import Verif.Bin.PropsDos
import Verif.Bin.PropsConsts
import Verif.Json.PropsDecode
import Verif.Args.PropsBind
import Verif.Args.PropsMixed
import Verif.Args.PropsSteps
import Verif.Args.PropsRepeat
import Verif.Args.PropsClosed
import Verif.Args.PropsGap
import Verif.Rng.PropsStreams
import Verif.Wrap.PropsCmp
import Verif.Wrap.PropsOwn
import Verif.Wrap.PropsPin
import Verif.Text.PropsUncaught
import Verif.Text.PropsCompat
import Verif.Cfg.PropsCfg
import Verif.Json.PropsText
import Verif.Json.SpecWrite
import Verif.Json.LemmasWrite
import Verif.Json.PropsWrite
import Verif.Json.PropsNumber
import Verif.Json.PropsBuf
import Verif.Json.PropsWork
import Verif.Json.PropsEffort
import Verif.Json.PropsSalvage
import Verif.Json.PropsMove
import Verif.Types.SpecTypes
import Verif.Types.ModelTypes
import Verif.Types.LemmasTypes
import Verif.Types.PropsTypes
import Verif.Types.ModelBrand
import Verif.Types.PropsBrand
import Verif.Wrap.SpecOnce
import Verif.Wrap.PropsOnce
import Verif.Args.ModelSearch
import Verif.Args.ModelEdit
import Verif.Args.PropsEdit
import Verif.Args.LemmasBisect
import Verif.Args.PropsFound
import Verif.Dbus.ModelMem
import Verif.Dbus.SpecMem
import Verif.Dbus.LemmasMem
import Verif.Dbus.PropsMem
import Verif.Dbus.PropsCost
import Verif.Dbus.PropsGrow
import Verif.Dbus.PropsAppend
import Verif.Dbus.PropsWords
import Verif.Dbus.PropsView
import Verif.Args.ModelCost
import Verif.Args.LemmasCost
import Verif.Args.PropsCost
import Verif.Args.ModelLookup
import Verif.Args.SpecLookup
import Verif.Args.LemmasLookup
import Verif.Args.PropsLookup
import Verif.Args.SpecTree
import Verif.Args.LemmasTree
import Verif.Args.PropsTree
import Verif.Io.ModelVec
import Verif.Io.SpecVec
import Verif.Io.LemmasVec
import Verif.Io.PropsVec
import Verif.Io.PropsGrow
import Verif.Io.PropsHist
import Verif.Types.SpecCoerce
import Verif.Types.ModelCoerce
import Verif.Types.LemmasCoerce
import Verif.Types.PropsCoerce
import Verif.Json.SpecAgree
import Verif.Json.LemmasAgree
import Verif.Json.PropsAgree
import Verif.Json.PropsNext
import Verif.Tests.Hash
import Verif.Tests.Json
import Verif.Tests.Dbus
import Verif.Tests.Bin
import Verif.Tests.Ffi
import Verif.Hash.ModelTrace
import Verif.Hash.LemmasTrace
import Verif.Hash.PropsTrace
import Verif.Build.Props
import Verif.Text.PropsFormat
import Verif.Hash.PropsUnwind
import Verif.Hash.PropsBinds
import Verif.Hash.PropsExtend
import Verif.Json.PropsPanic
import Verif.Dbus.PropsPanic
import Verif.Dbus.PropsDie
import Verif.Json.PropsFlaky
import Verif.Args.PropsAsk
import Verif.Borrow.PropsBorrow
import Verif.Args.PropsAccess
import Verif.Args.PropsErrors
import Verif.Args.PropsShared
import Verif.Args.PropsMetered
import Verif.Text.ModelLossy
import Verif.Text.SpecLossy
import Verif.Text.LemmasLossy
import Verif.Text.PropsLossy
import Verif.Dbus.SpecSkip
import Verif.Dbus.LemmasSkip
import Verif.Dbus.PropsSkip
import Verif.Dbus.SpecUnique
import Verif.Dbus.LemmasUnique
import Verif.Dbus.PropsUnique
import Verif.Dbus.SpecYield
import Verif.Dbus.LemmasYield
import Verif.Dbus.PropsYield
import Verif.Args.SpecSame
import Verif.Args.LemmasSame
import Verif.Args.PropsSame
import Verif.Json.SpecLocal
import Verif.Json.LemmasLocal
import Verif.Json.PropsLocal
import Verif.Json.LemmasLocalBytes
import Verif.Json.PropsLocalBytes
import Verif.Dbus.SpecOrder
import Verif.Dbus.LemmasOrder
import Verif.Dbus.LemmasShape
import Verif.Dbus.PropsOrder
import Verif.Dbus.SpecRetry
import Verif.Dbus.LemmasRetry
import Verif.Dbus.PropsRetry
