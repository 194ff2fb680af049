import Verif.Props.Mem
import Verif.Props.Layout
import Verif.Props.Layout2
import Verif.Props.Main
import Verif.Props.Errno
import Verif.Spec.TlsVars
import Verif.Model.TlsVars
import Verif.Props.TlsVars
import Verif.Props.MemX86Asm
import Verif.Props.Bridge
import Verif.Props.ThreadPtr
import Verif.Props.PcRel
import Verif.Props.Lifecycle
import Verif.Props.Races
import Verif.Props.Fair
import Verif.Model.Fork
import Verif.Proof.Fork
import Verif.Props.Fork
import Verif.Props.FairProc
import Verif.Model.ForkProc
import Verif.Spec.ForkProc
import Verif.Proof.ForkProc
import Verif.Props.ForkProc
import Verif.Model.LogProc
import Verif.Spec.LogProc
import Verif.Proof.LogProc
import Verif.Proof.LogProc2
import Verif.Props.LogProc
import Verif.Spec.LogLive
import Verif.Proof.LogLive
import Verif.Proof.LogLive2
import Verif.Proof.LogLive3
import Verif.Props.LogLive
import Verif.Props.Exact
import Verif.Props.Signals
import Verif.Props.SignalsLive
import Verif.Props.Stubs
import Verif.Props.Startup
import Verif.Props.Process
import Verif.Props.Relocate
import Verif.Props.Asm
import Verif.Props.Libc
import Verif.Props.Libc2
import Verif.Props.Debug
import Verif.Props.DebugThread
import Verif.Props.Boot
import Verif.Props.BootFail
import Verif.Props.Whole
import Verif.Props.ThreadStart
import Verif.Props.Witness
import Verif.Props.EntryChecks
import Verif.Spec.FairWhole
import Verif.Proof.FairWhole
import Verif.Proof.FairWhole2
import Verif.Props.FairWhole
import Verif.Model.User
import Verif.Spec.User
import Verif.Proof.User
import Verif.Proof.User2
import Verif.Proof.User3
import Verif.Proof.User4
import Verif.Proof.User5
import Verif.Proof.User6
import Verif.Proof.User7
import Verif.Proof.User8
import Verif.Proof.User9
import Verif.Proof.User10
import Verif.Proof.User11
import Verif.Proof.User12
import Verif.Model.Programs
import Verif.Proof.Programs
import Verif.Props.User
import Verif.Props.Ids
import Verif.Spec.FairUser
import Verif.Proof.User13
import Verif.Proof.User14
import Verif.Proof.User15
import Verif.Proof.User16
import Verif.Proof.User17
import Verif.Proof.User18
import Verif.Proof.Programs2
import Verif.Proof.Programs3
import Verif.Proof.Programs4
import Verif.Props.FairUser
import Verif.Props.FairUser2
import Verif.Model.Programs2
import Verif.Proof.Hello
import Verif.Props.Programs2
import Verif.Spec.ForkJoin
import Verif.Proof.ForkJoin
import Verif.Props.ForkJoin
import Verif.Model.Unwind
import Verif.Spec.Unwind
import Verif.Proof.Unwind
import Verif.Proof.Unwind2
import Verif.Proof.Unwind3
import Verif.Proof.Unwind4
import Verif.Props.Unwind
import Verif.Model.Ctors
import Verif.Spec.Ctors
import Verif.Proof.LogBoot
import Verif.Props.LogBoot
import Verif.Props.Ctors
import Verif.Props.External
import Verif.Spec.External
import Verif.Props.ExternalLive
import Verif.Spec.SingleThread
import Verif.Props.SingleThread
import Verif.Spec.ProcRaces
import Verif.Props.ProcRaces
