import Verif.Model.AfdBytes
import Verif.Model.AfdGroups
import Verif.Model.AfdHandles
import Verif.Model.Base
import Verif.Model.BaseSocket
import Verif.Model.Buffers
import Verif.Model.EpollM
import Verif.Model.Flags
import Verif.Model.Hermit
import Verif.Model.IocpClock
import Verif.Model.IocpF
import Verif.Model.IocpM
import Verif.Model.KqClock
import Verif.Model.KqFilters
import Verif.Model.KqM
import Verif.Model.KqSubmit
import Verif.Model.Layout
import Verif.Model.Lib
import Verif.Model.Lifecycle
import Verif.Model.Modes
import Verif.Model.Nested
import Verif.Model.Ntdll
import Verif.Model.PacketRc
import Verif.Model.PollBlocking
import Verif.Model.PollClock
import Verif.Model.PollProto
import Verif.Model.PollTable
import Verif.Model.PortM
import Verif.Model.Targets
import Verif.Model.Time
import Verif.Model.WaitLock
import Verif.Model.WaitTiming
import Verif.Proof.AfdBytes
import Verif.Proof.AfdGroups
import Verif.Proof.AfdHandles
import Verif.Proof.ApiCount
import Verif.Proof.ApiIocp
import Verif.Proof.ApiIocpCount
import Verif.Proof.ApiKq
import Verif.Proof.ApiMarks
import Verif.Proof.ApiPoll
import Verif.Proof.ApiSeq
import Verif.Proof.Bits
import Verif.Proof.Cnt
import Verif.Proof.EpollDeliver
import Verif.Proof.EpollDue
import Verif.Proof.EpollEdge
import Verif.Proof.EpollInv
import Verif.Proof.EpollPhase
import Verif.Proof.EpollQueue
import Verif.Proof.EpollRun
import Verif.Proof.EpollScan
import Verif.Proof.EpollShow
import Verif.Proof.EpollStep
import Verif.Proof.EpollTimer
import Verif.Proof.ExtraLawful
import Verif.Proof.FlagLemmas
import Verif.Proof.HandEpoll
import Verif.Proof.HandIocp
import Verif.Proof.HandKq
import Verif.Proof.HandLapse
import Verif.Proof.HandPoll
import Verif.Proof.HandPort
import Verif.Proof.HandRun
import Verif.Proof.HandTimed
import Verif.Proof.IocpClock
import Verif.Proof.IocpClose
import Verif.Proof.IocpCov
import Verif.Proof.IocpEff
import Verif.Proof.IocpFAbs
import Verif.Proof.IocpFBuf
import Verif.Proof.IocpFLast
import Verif.Proof.IocpFLive
import Verif.Proof.IocpFPlain
import Verif.Proof.IocpFProg
import Verif.Proof.IocpFReal
import Verif.Proof.IocpFRun
import Verif.Proof.IocpFSec
import Verif.Proof.IocpFSim
import Verif.Proof.IocpFull
import Verif.Proof.IocpNotify
import Verif.Proof.IocpOps
import Verif.Proof.IocpOwn
import Verif.Proof.IocpPost
import Verif.Proof.IocpQueue
import Verif.Proof.IocpReg
import Verif.Proof.IocpRepoll
import Verif.Proof.IocpSolo
import Verif.Proof.IocpStop
import Verif.Proof.IocpSync
import Verif.Proof.IocpTimeout
import Verif.Proof.IocpWait
import Verif.Proof.IocpWtb
import Verif.Proof.KqCalls
import Verif.Proof.KqClock
import Verif.Proof.KqDeliver
import Verif.Proof.KqFilters
import Verif.Proof.KqInv
import Verif.Proof.KqNext
import Verif.Proof.KqNotify
import Verif.Proof.KqRun
import Verif.Proof.KqScan
import Verif.Proof.KqTaken
import Verif.Proof.KqTimeout
import Verif.Proof.Layout
import Verif.Proof.Lifecycle
import Verif.Proof.LifecycleWorks
import Verif.Proof.LinIocp
import Verif.Proof.LinKq
import Verif.Proof.LinPoll
import Verif.Proof.LinSim
import Verif.Proof.LiveEpoll
import Verif.Proof.LiveIocp
import Verif.Proof.LiveIocpHelp
import Verif.Proof.LiveIocpSolo
import Verif.Proof.LiveKq
import Verif.Proof.LivePoll
import Verif.Proof.LiveSeq
import Verif.Proof.NestedEpoll
import Verif.Proof.PacketRc
import Verif.Proof.PacketRcInv
import Verif.Proof.PacketRcLost
import Verif.Proof.PollClock
import Verif.Proof.PollCnt
import Verif.Proof.PollHist2
import Verif.Proof.PollHistory
import Verif.Proof.PollInv
import Verif.Proof.PollProgress
import Verif.Proof.PollReach
import Verif.Proof.PollRepoll
import Verif.Proof.PollRound
import Verif.Proof.PollSync
import Verif.Proof.PollTable
import Verif.Proof.PollTimeout
import Verif.Proof.PollView
import Verif.Proof.PortInv
import Verif.Proof.TimeLemmas
import Verif.Proof.WaitFree
import Verif.Props.C01
import Verif.Props.C02
import Verif.Props.C03Epoll
import Verif.Props.C04Epoll
import Verif.Props.C05Poll
import Verif.Props.C06
import Verif.Props.C06Epoll
import Verif.Props.C06Kq
import Verif.Props.C06Poll
import Verif.Props.C07
import Verif.Props.C08
import Verif.Props.C09
import Verif.Props.C09Machine
import Verif.Props.C10
import Verif.Props.C11
import Verif.Props.C12
import Verif.Props.C13
import Verif.Props.C14
import Verif.Props.C15Epoll
import Verif.Props.C16Epoll
import Verif.Props.C18Epoll
import Verif.Props.C19Epoll
import Verif.Props.C20
import Verif.Props.C20Epoll
import Verif.Props.C20Hermit
import Verif.Props.C22Kq
import Verif.Props.C27
import Verif.Props.C32
import Verif.Props.C33Blocking
import Verif.Props.C33Poll
import Verif.Props.C34Poll
import Verif.Props.C35Epoll
import Verif.Props.C35Poll
import Verif.Props.C36
import Verif.Props.C37
import Verif.Props.C38
import Verif.Props.C41
import Verif.Props.C42
import Verif.Props.C43
import Verif.Props.C44
import Verif.Props.C46
import Verif.Props.C47
import Verif.Props.C48
import Verif.Props.C49
import Verif.Props.C50
import Verif.Props.C51
import Verif.Props.C52
import Verif.Props.C53
import Verif.Props.C54
import Verif.Props.C54Iocp
import Verif.Props.C55
import Verif.Props.C55Kq
import Verif.Props.C56
import Verif.Props.C57
import Verif.Props.C58
import Verif.Props.C58Iocp
import Verif.Props.C58Kq
import Verif.Props.C58Poll
import Verif.Props.C59
import Verif.Props.C59Iocp
import Verif.Props.C59Kq
import Verif.Props.C59Machine
import Verif.Props.C59Poll
import Verif.Props.C60
import Verif.Props.C61
import Verif.Props.C62
import Verif.Props.C63
import Verif.Props.C64
import Verif.Props.C65
import Verif.Props.C65Runs
import Verif.Props.C66
import Verif.Props.C66Poll
import Verif.Props.C67
import Verif.Props.C67Clock
import Verif.Props.C68
import Verif.Props.C68Kq
import Verif.Props.C68Port
import Verif.Props.C69
import Verif.Props.C70
import Verif.Props.C71
import Verif.Props.C72
import Verif.Props.IocpCalls
import Verif.Props.IocpDelivery
import Verif.Props.IocpNotify
import Verif.Props.IocpPackets
import Verif.Props.IocpStop
import Verif.Props.IocpSync
import Verif.Props.KqCalls
import Verif.Props.KqDelivery
import Verif.Props.KqNotify
import Verif.Props.PollCalls
import Verif.Props.PollDelivery
import Verif.Props.PortCalls
import Verif.Props.PortNotify
import Verif.Spec.AfdBytesTrace
import Verif.Spec.AfdHandleTrace
import Verif.Spec.AfdTrace
import Verif.Spec.Api
import Verif.Spec.ApiView
import Verif.Spec.EpollWatch
import Verif.Spec.EventApi
import Verif.Spec.Flags
import Verif.Spec.Hand
import Verif.Spec.Interest
import Verif.Spec.IocpPolls
import Verif.Spec.IocpTrace
import Verif.Spec.KqFilterTrace
import Verif.Spec.KqTrace
import Verif.Spec.Lin
import Verif.Spec.LinView
import Verif.Spec.Live
import Verif.Spec.Modes
import Verif.Spec.Nested
import Verif.Spec.NtdllTrace
import Verif.Spec.PollHistory
import Verif.Spec.PollMap
import Verif.Spec.PollTrace
import Verif.Spec.Targets
import Verif.Spec.Tid
import Verif.Spec.Time
import Verif.Spec.Trace
import Verif.Spec.WaitFree
import Verif.Spec.WaitTrace
import Verif.Spec.WinLayout
