import Verif.ANS
import Verif.Ac
import Verif.AcBlock
import Verif.AcCtx
import Verif.AcImage
import Verif.AcTables
import Verif.Accept
import Verif.Acceptance
import Verif.Alias
import Verif.Base128
import Verif.BigCount
import Verif.BigFile
import Verif.BigRead
import Verif.BitBytes
import Verif.BitCall
import Verif.BitClient
import Verif.BitClients
import Verif.BitFeed
import Verif.BitIO
import Verif.BitMachine
import Verif.BitProg
import Verif.BitSections
import Verif.BitTables
import Verif.Bits
import Verif.Blank
import Verif.ByteOrder
import Verif.Canon
import Verif.ClusterAlg
import Verif.ClusterSpec
import Verif.ClusterTotal
import Verif.CodeBuf
import Verif.CodeCount
import Verif.CodeStore
import Verif.Codes
import Verif.CoeffOrder
import Verif.Conc
import Verif.ConcEncode
import Verif.ConcEncodeAc
import Verif.ConcFlag
import Verif.ConcPredict
import Verif.ConcSample
import Verif.ConcTiles
import Verif.Container
import Verif.ContextMap
import Verif.DataStream
import Verif.Dc
import Verif.DcImage
import Verif.Drain
import Verif.E2E
import Verif.Enc
import Verif.EncEstimate
import Verif.Estimate
import Verif.Executor
import Verif.FastLog
import Verif.GapFile
import Verif.GroupAccept
import Verif.GroupBig
import Verif.GroupCodec
import Verif.GroupDims
import Verif.GroupFile
import Verif.GroupRound
import Verif.GroupSafe
import Verif.GroupStage
import Verif.GroupTask
import Verif.GroupTiles
import Verif.Groups
import Verif.Headerless
import Verif.HistSection
import Verif.Histogram
import Verif.HuffCode
import Verif.HuffDesc
import Verif.HuffRead
import Verif.HuffSafe
import Verif.HuffStore
import Verif.HuffTree
import Verif.InnerSize
import Verif.Internals
import Verif.JAtom
import Verif.JBits
import Verif.JBlock
import Verif.JBlockSpec
import Verif.JCode
import Verif.JEntropy
import Verif.JFile
import Verif.JFileSpec
import Verif.JFirst
import Verif.JFrame
import Verif.JGrid
import Verif.JHoare
import Verif.JHuff
import Verif.JLut
import Verif.JMark
import Verif.JMasks
import Verif.JMatch
import Verif.JMode
import Verif.JOrder
import Verif.JOut
import Verif.JReader
import Verif.JRefine
import Verif.JReqs
import Verif.JRound
import Verif.JSafe
import Verif.JSafeBits
import Verif.JSafeBlock
import Verif.JSafeScan
import Verif.JScan
import Verif.JScanSpec
import Verif.JSof
import Verif.JSync
import Verif.JTab
import Verif.JValid
import Verif.JValues
import Verif.JWriter
import Verif.JWriterSpec
import Verif.JpegData
import Verif.Lut
import Verif.LutSize
import Verif.LutSub
import Verif.MetaTables
import Verif.Metadata
import Verif.OutFile
import Verif.OutInput
import Verif.OutSize
import Verif.Output
import Verif.ParamInts
import Verif.PopCost
import Verif.Prob
import Verif.ProgReads
import Verif.PropsA
import Verif.PropsB
import Verif.PropsC
import Verif.PropsD
import Verif.PropsE
import Verif.PropsF
import Verif.PropsG
import Verif.PropsH
import Verif.PropsI
import Verif.PropsJ
import Verif.PropsK
import Verif.PropsL
import Verif.PropsM
import Verif.PropsN
import Verif.PropsO
import Verif.PropsP
import Verif.PropsQ
import Verif.PropsR
import Verif.PropsS
import Verif.PropsT
import Verif.PropsU
import Verif.PropsV
import Verif.PropsW
import Verif.PropsX
import Verif.PropsY
import Verif.PropsZ
import Verif.PropsZA
import Verif.PropsZB
import Verif.PropsZC
import Verif.PropsZD
import Verif.PropsZE
import Verif.PropsZF
import Verif.PropsZG
import Verif.PropsZH
import Verif.PropsZI
import Verif.PropsZJ
import Verif.PropsZK
import Verif.PropsZL
import Verif.PropsZM
import Verif.PropsZN
import Verif.PropsZO
import Verif.PropsZP
import Verif.PropsZQ
import Verif.PropsZR
import Verif.PropsZS
import Verif.PropsZT
import Verif.PropsZU
import Verif.PropsZV
import Verif.PropsZW
import Verif.Quant
import Verif.Reader
import Verif.Rebalance
import Verif.Recip
import Verif.Resume
import Verif.ScanInfo
import Verif.Sched
import Verif.Section
import Verif.Serialize
import Verif.Serve
import Verif.Sizes
import Verif.Skip
import Verif.StockTables
import Verif.StreamBody
import Verif.StreamClean
import Verif.StreamCode
import Verif.StreamCoef
import Verif.StreamDecode
import Verif.StreamFile
import Verif.StreamHist
import Verif.StreamInter
import Verif.StreamInternals
import Verif.StreamKnown
import Verif.StreamLeads
import Verif.StreamMeta
import Verif.StreamOrig
import Verif.StreamOut
import Verif.StreamOutSpec
import Verif.StreamPlanes
import Verif.StreamQuant
import Verif.StreamReady
import Verif.StreamSafe
import Verif.StreamSane
import Verif.StreamSeen
import Verif.StreamSem
import Verif.StreamView
import Verif.StreamWatch
import Verif.StreamWords
import Verif.Streaming
import Verif.Tools
import Verif.Varint
import Verif.Width
import Verif.WidthFit
import Verif.WidthSub
import Verif.Wrappers
import Verif.WriterSafe
import Verif.Axioms
