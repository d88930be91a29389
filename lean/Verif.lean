import Verif.Agt.Model
import Verif.Agt.Props
import Verif.Agt.PropsMsg
import Verif.Ann.Demo
import Verif.Ann.Lemmas
import Verif.Ann.Model
import Verif.Ann.MsgLemmas
import Verif.Ann.Props
import Verif.Ann.TextLemmas
import Verif.Base.Digits
import Verif.Base.Err
import Verif.Bsr.Demo
import Verif.Bsr.Find
import Verif.Bsr.Frame
import Verif.Bsr.Inv
import Verif.Bsr.Lemmas
import Verif.Bsr.Model
import Verif.Bsr.PropsHead
import Verif.Bsr.PropsIssue
import Verif.Bsr.PropsKept
import Verif.Bsr.PropsLog
import Verif.Bsr.PropsName
import Verif.Bsr.PropsPass
import Verif.Bsr.PropsSeal
import Verif.Bsr.Spec
import Verif.Cesr.Demo
import Verif.Cesr.FieldLemmas
import Verif.Cesr.Model
import Verif.Cesr.MsgLemmas
import Verif.Cesr.PropsCommit
import Verif.Cesr.PropsRead
import Verif.Cesr.PropsStream
import Verif.Cesr.SealLemmas
import Verif.Cesr.Spec
import Verif.Codec.B64
import Verif.Codec.B64Lemmas
import Verif.Codec.Bits
import Verif.Codec.Counter
import Verif.Codec.CounterLemmas
import Verif.Codec.DecLemmas
import Verif.Codec.Indexer
import Verif.Codec.IndexerBin
import Verif.Codec.IndexerLemmas
import Verif.Codec.Matter
import Verif.Codec.MatterForms
import Verif.Codec.MatterLemmas
import Verif.Codec.MatterMake
import Verif.Codec.PropsB64
import Verif.Codec.PropsCounter
import Verif.Codec.PropsIndexer
import Verif.Codec.PropsMatter
import Verif.Codec.PropsSizes
import Verif.Codec.PropsTexts
import Verif.Codec.Texts
import Verif.Codec.TextsLemmas
import Verif.Conf.Demo
import Verif.Conf.Model
import Verif.Conf.Props
import Verif.Db.Bytes
import Verif.Db.IoDup
import Verif.Db.IoSet
import Verif.Db.IoSetLemmas
import Verif.Db.IoSetWrite
import Verif.Db.Key
import Verif.Db.KeyLemmas
import Verif.Db.On
import Verif.Db.OnIoSet
import Verif.Db.PropsBack
import Verif.Db.PropsDupIter
import Verif.Db.PropsIoDup
import Verif.Db.PropsIoSet
import Verif.Db.PropsKey
import Verif.Db.PropsMap
import Verif.Db.PropsOn
import Verif.Db.PropsRemOn
import Verif.Db.RemOnIoSet
import Verif.Db.Table
import Verif.Db.TableLemmas
import Verif.Ends.Lemmas
import Verif.Ends.Model
import Verif.Ends.Props
import Verif.Exc.Demo
import Verif.Exc.Lemmas
import Verif.Exc.Model
import Verif.Exc.PropsAuth
import Verif.Exc.PropsGather
import Verif.Exc.PropsIpex
import Verif.Exc.PropsNest
import Verif.Exc.PropsRead
import Verif.Exc.PropsTime
import Verif.Exc.Runs
import Verif.Exc.Spec
import Verif.Fwd.Model
import Verif.Fwd.Props
import Verif.Fwd.PropsStream
import Verif.Grp.CounselInv
import Verif.Grp.Demo
import Verif.Grp.DemoMux
import Verif.Grp.Lemmas
import Verif.Grp.Model
import Verif.Grp.MuxModel
import Verif.Grp.MuxSpec
import Verif.Grp.PropsAnchor
import Verif.Grp.PropsCounsel
import Verif.Grp.PropsKept
import Verif.Grp.PropsMux
import Verif.Grp.PropsMuxAll
import Verif.Grp.PropsProgress
import Verif.Grp.PropsPublish
import Verif.Grp.PropsStuck
import Verif.Grp.Spec
import Verif.Grp.Whole
import Verif.Hab.BuildLemmas
import Verif.Hab.CrashLemmas
import Verif.Hab.Demo
import Verif.Hab.InvLemmas
import Verif.Hab.KeyLemmas
import Verif.Hab.LiveLemmas
import Verif.Hab.MakeInv
import Verif.Hab.MakeLemmas
import Verif.Hab.Model
import Verif.Hab.OwnLemmas
import Verif.Hab.PropsCrash
import Verif.Hab.PropsFail
import Verif.Hab.PropsMade
import Verif.Hab.PropsRotate
import Verif.Hab.PropsSync
import Verif.Hab.Spec
import Verif.Hand.Demo
import Verif.Hand.Kevery
import Verif.Hand.Model
import Verif.Hand.PropsHand
import Verif.Hand.Spec
import Verif.Http.Lemmas
import Verif.Http.Model
import Verif.Http.Props
import Verif.Http.PropsStream
import Verif.Iss.Demo
import Verif.Iss.Inv
import Verif.Iss.Lemmas
import Verif.Iss.Model
import Verif.Iss.PropsDone
import Verif.Iss.PropsKept
import Verif.Iss.PropsSeal
import Verif.Iss.Spec
import Verif.Kel.Chain
import Verif.Kel.Core
import Verif.Kel.Crash
import Verif.Kel.CrashLemmas
import Verif.Kel.Demo
import Verif.Kel.Frame
import Verif.Kel.Keys
import Verif.Kel.Model
import Verif.Kel.Order
import Verif.Kel.PropsAuth
import Verif.Kel.PropsCrash
import Verif.Kel.PropsLive
import Verif.Kel.PropsLog
import Verif.Kel.PropsOrder
import Verif.Kel.PropsSig
import Verif.Kel.PropsSource
import Verif.Kel.PropsSpread
import Verif.Kel.PropsStore
import Verif.Kel.Run
import Verif.Kel.SigStore
import Verif.Kel.Source
import Verif.Kel.Spec
import Verif.Kel.Spread
import Verif.Kel.SpreadInv
import Verif.Kel.SpreadStep
import Verif.Kel.Steps
import Verif.Kel.Val
import Verif.Krm.Auth
import Verif.Krm.Demo
import Verif.Krm.Exchange
import Verif.Krm.Frames
import Verif.Krm.Lemmas
import Verif.Krm.Model
import Verif.Krm.PropsAuth
import Verif.Krm.PropsGather
import Verif.Krm.PropsLive
import Verif.Krm.PropsPrune
import Verif.Krm.PropsReplay
import Verif.Krm.PropsSettings
import Verif.Krm.PropsSigs
import Verif.Krm.PropsTime
import Verif.Krm.Replay
import Verif.Krm.Spec
import Verif.Krm.SpecAuth
import Verif.Krm.Tab
import Verif.Krm.Uniform
import Verif.Krm.Waiting
import Verif.Mad.Aggor
import Verif.Mad.AggorLemmas
import Verif.Mad.AggorSpec
import Verif.Mad.Beq
import Verif.Mad.Compact
import Verif.Mad.CompactCommit
import Verif.Mad.CompactLoop
import Verif.Mad.CompactOnce
import Verif.Mad.CompactRoll
import Verif.Mad.CompactRound
import Verif.Mad.CompactSpec
import Verif.Mad.CompactVary
import Verif.Mad.Demo
import Verif.Mad.DemoAggor
import Verif.Mad.DemoCompact
import Verif.Mad.Enough
import Verif.Mad.GroupLemmas
import Verif.Mad.LabelLemmas
import Verif.Mad.Labeler
import Verif.Mad.Model
import Verif.Mad.PropsAggor
import Verif.Mad.PropsCompact
import Verif.Mad.PropsMap
import Verif.Mad.PropsSaid
import Verif.Mad.Said
import Verif.Mad.SaidLemmas
import Verif.Mad.SaidMore
import Verif.Mad.SaidSpec
import Verif.Mad.Spec
import Verif.Mad.ValLemmas
import Verif.Mbx.Demo
import Verif.Mbx.Lemmas
import Verif.Mbx.Model
import Verif.Mbx.PropsBox
import Verif.Mbx.PropsCue
import Verif.Mbx.PropsExact
import Verif.Mbx.PropsPoll
import Verif.Mbx.Spec
import Verif.Mgr.Cases
import Verif.Mgr.Demo
import Verif.Mgr.Eff
import Verif.Mgr.Frame
import Verif.Mgr.Ingest
import Verif.Mgr.Lemmas
import Verif.Mgr.Lots
import Verif.Mgr.Model
import Verif.Mgr.PropsCrash
import Verif.Mgr.PropsEnc
import Verif.Mgr.PropsIngest
import Verif.Mgr.PropsKeys
import Verif.Mgr.PropsPath
import Verif.Mgr.PropsSign
import Verif.Mgr.PropsTold
import Verif.Mgr.Same
import Verif.Mgr.Spec
import Verif.Note.Model
import Verif.Note.Props
import Verif.Note.PropsSig
import Verif.Oobi.Demo
import Verif.Oobi.Lemmas
import Verif.Oobi.Model
import Verif.Oobi.Props
import Verif.Oobi.Prov
import Verif.Org.Demo
import Verif.Org.Img
import Verif.Org.Lemmas
import Verif.Org.Model
import Verif.Org.Props
import Verif.Org.Props2
import Verif.Prs.Calm
import Verif.Prs.Chunks
import Verif.Prs.DemoGeneric
import Verif.Prs.DemoStream
import Verif.Prs.Eats
import Verif.Prs.Flow
import Verif.Prs.Frames
import Verif.Prs.Generic
import Verif.Prs.Loop
import Verif.Prs.Messages
import Verif.Prs.Messagize
import Verif.Prs.Model
import Verif.Prs.PropsCodings
import Verif.Prs.PropsGeneric
import Verif.Prs.PropsSound
import Verif.Prs.PropsStream
import Verif.Prs.PropsVersion
import Verif.Prs.Run
import Verif.Prs.Sends
import Verif.Prs.Sent
import Verif.Prs.Sound
import Verif.Prs.Spec
import Verif.Prs.SpecSound
import Verif.Prs.Stream
import Verif.Prs.Top
import Verif.Prs.Version
import Verif.Prs.VersionLemmas
import Verif.Prs.Write
import Verif.Rct.Demo
import Verif.Rct.Lemmas
import Verif.Rct.Model
import Verif.Rct.PropsOwn
import Verif.Rct.PropsRct
import Verif.Rct.PropsStored
import Verif.Reg.Demo
import Verif.Reg.Model
import Verif.Reg.PropsMade
import Verif.Reg.PropsName
import Verif.Reg.PropsRot
import Verif.Replay.Demo
import Verif.Replay.Induct
import Verif.Replay.Lemmas
import Verif.Replay.Model
import Verif.Replay.Props
import Verif.Replay.Spec
import Verif.Rpy.Lemmas
import Verif.Rpy.Model
import Verif.Rpy.PropsAuth
import Verif.Rpy.PropsBada
import Verif.Rpy.PropsBadaGroups
import Verif.Rpy.PropsParts
import Verif.Sch.Demo
import Verif.Sch.Model
import Verif.Sch.Props
import Verif.Ser.Again
import Verif.Ser.ArrangeLemmas
import Verif.Ser.Demo
import Verif.Ser.FieldLemmas
import Verif.Ser.Json
import Verif.Ser.JsonLemmas
import Verif.Ser.MadeLemmas
import Verif.Ser.MakeLemmas
import Verif.Ser.Model
import Verif.Ser.PropsCommit
import Verif.Ser.PropsMake
import Verif.Ser.PropsRight
import Verif.Ser.PropsStream
import Verif.Ser.RightLemmas
import Verif.Ser.SaidLemmas
import Verif.Ser.Spec
import Verif.Ser.VerifyLemmas
import Verif.Sub.Codec
import Verif.Sub.Keys
import Verif.Sub.Model
import Verif.Sub.PropsCodec
import Verif.Sub.PropsIo
import Verif.Sub.PropsMap
import Verif.Sub.Spec
import Verif.Tel.Demo
import Verif.Tel.Inv
import Verif.Tel.Lemmas
import Verif.Tel.Model
import Verif.Tel.PropsLog
import Verif.Tel.PropsReg
import Verif.Tel.PropsWait
import Verif.Tel.Spec
import Verif.TelRep.Demo
import Verif.TelRep.Model
import Verif.TelRep.Props
import Verif.TelRep.PropsBacked
import Verif.Thold.Lemmas
import Verif.Thold.Model
import Verif.Thold.Props
import Verif.Thold.PropsText
import Verif.Thold.Spec
import Verif.Thold.Text
import Verif.Thold.TextLemmas
import Verif.Tsn.Demo
import Verif.Tsn.Lemmas
import Verif.Tsn.Model
import Verif.Tsn.Props
import Verif.Tsn.PropsKept
import Verif.Tsn.Spec
import Verif.Vry.Demo
import Verif.Vry.Inv
import Verif.Vry.Lemmas
import Verif.Vry.Model
import Verif.Vry.PropsCred
import Verif.Vry.PropsWait
import Verif.Vry.Spec
import Verif.Watch.Model
import Verif.Watch.Props
import Verif.Web.AllLast
import Verif.Web.AllLastOn
import Verif.Web.BackSets
import Verif.Web.Demo
import Verif.Web.DemoOnSets
import Verif.Web.DemoSets
import Verif.Web.LastSets
import Verif.Web.Model
import Verif.Web.OnSets
import Verif.Web.Props
import Verif.Web.PropsAllLast
import Verif.Web.PropsAllLastOn
import Verif.Web.PropsBackSets
import Verif.Web.PropsKeep
import Verif.Web.PropsLastSets
import Verif.Web.PropsOnSets
import Verif.Web.PropsRemOn
import Verif.Web.PropsSets
import Verif.Web.PropsVersion
import Verif.Web.Sets
import Verif.Web.Version
