import Verif.Basic
import Verif.Num
import Verif.NumLemmas
import Verif.Read
import Verif.Search
import Verif.Write
import Verif.ReadOps
import Verif.ReadLemmas
import Verif.SearchLemmas
import Verif.Tame
import Verif.PropRead
import Verif.WriteOps
import Verif.WriteLemmas
import Verif.PropWrite
import Verif.IO
import Verif.PropIO
import Verif.MutRead
import Verif.PropMutRead
import Verif.Modifiers
import Verif.CodecInt
import Verif.CodecBytes
import Verif.CodecSeq
import Verif.CodecAddr
import Verif.RoundTrip
import Verif.IntLemmas
import Verif.PropInt
import Verif.PropBits
import Verif.Utf8
import Verif.PropBytes
import Verif.SeqLemmas
import Verif.Safe
import Verif.PropSeq
import Verif.PropMap
import Verif.Text
import Verif.PropAddr
import Verif.PropText
import Verif.Derive
import Verif.DeriveLemmas
import Verif.PropStruct
import Verif.PropStructRT
import Verif.PropEnum
import Verif.Universe
import Verif.Good
import Verif.Local
import Verif.Extend
import Verif.Emits
import Verif.PropDerive
import Verif.Top
import Verif.PropTop
import Verif.NetText
import Verif.PropNet
import Verif.PropMore
import Verif.EncLogic
import Verif.Placed
import Verif.Storable
import Verif.PropEncode
import Verif.Faithful
import Verif.Reencode
import Verif.PropReencode
import Verif.Recursive
import Verif.PropRecursive
import Verif.AttrText
import Verif.PropAttr
import Verif.PropFromStr
import Verif.Format
import Verif.PropFormat
import Verif.MutWrite
import Verif.PropMutWrite
import Verif.Serde
import Verif.PropSerde
import Verif.Default
import Verif.PropDefault
import Verif.Vectors
import Verif.VectorsDerive
import Verif.Getter
import Verif.PropGetter
import Verif.PropExact
import Verif.VectorsGet
import Verif.DeriveText
import Verif.PropTagText
import Verif.AttrExpr
import Verif.PropExpr
import Verif.PropAttrNames
import Verif.Memory
import Verif.PropMemory
import Verif.PropStructText
import Verif.PropEnumText
import Verif.ErrorText
import Verif.PropErrorText
import Verif.PropLeak
import Verif.PropPadding
import Verif.GenCode
import Verif.PropGenCode
import Verif.GenEncode
import Verif.PropGenEncode
import Verif.GenEnum
import Verif.PropGenEnum
import Verif.PropGenEnumEncode
import Verif.GenHeader
import Verif.PropGenHeader
import Verif.PropExprVars
import Verif.PropExprArgs
import Verif.Checked
import Verif.PropChecked
import Verif.PropBuffer
import Verif.PropTruncate
import Verif.Stands
import Verif.PropErrorPos
import Verif.IoCodecs
import Verif.IoSim
import Verif.AnyIo
import Verif.AnyIoLemmas
import Verif.PropAnyIo
import Verif.PropCheckedAll
import Verif.PropErrorPosMut
import Verif.Word32
import Verif.PropWord32
import Verif.PropExprValue
import Verif.Size
import Verif.PropLinear
import Verif.PropWord32More
import Verif.Packets
import Verif.PropPackets
import Verif.PropFrames
import Verif.Final
import Verif.PropFinal
import Verif.Http
import Verif.PropHttp
import Verif.PropHttpMore
import Verif.Same
import Verif.PropSame
import Verif.PropGrow
import Verif.Held
import Verif.PropHeld
import Verif.Socket
import Verif.PropSocket
import Verif.PropStream
import Verif.Commands
import Verif.PropCommands
import Verif.DefaultExample
import Verif.PropDefaultExample
import Verif.Lent
import Verif.PropLent
import Verif.PropSheet
import Verif.PropEnumSheet
import Verif.PropTypeWords
import Verif.PropOrder
import Verif.PropOrderRead
import Verif.PropOrderExact
import Verif.Layout
import Verif.LayoutWrite
import Verif.PropLayout
import Verif.PropShared
import Verif.Renew
import Verif.RenewFields
import Verif.RenewLoop
import Verif.Renewable
import Verif.PropRenew
import Verif.PropRenewMap
import Verif.Patch
import Verif.PropPatch
import Verif.PropPatchEnum
import Verif.Sorting
import Verif.PropSort
import Verif.PropAppend
import Verif.PropAppendDeep
