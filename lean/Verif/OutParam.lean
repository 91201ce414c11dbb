import Verif.Dfsan
import Verif.Spec.OutParam
import Verif.ShadowMem
/-
Model of the wrappers for library and system calls that fill in memory of the caller,
/repo/polytracker/src/compiler-rt/lib/dfsan/dfsan_custom.cpp: those that are `custom` in
polytracker/custom_abi/dfsan_abilist.txt and are not replaced by src/taint_sources. (The wrappers of
recvmsg, recvmmsg, epoll_wait, getsockopt, getsockname, getpeername, sigaltstack, pthread_join and fork
exist, but these functions are `uninstrumented` in the ABI lists, so the wrappers are not called.)

Each definition takes the memory `m` after the call, its result and its pointer arguments, and returns
the memory with the labels the wrapper sets. `ret_label` is 0 unless it is returned. Structure sizes are
those of x86-64 Linux with the GNU C library. Not modelled: origins (`__dfso_*`).
-/
namespace Verif
namespace OutParam

open DfsanMem

/-- `dfsan_set_label(l, p, n)`, where the shadow of `p` may not be mapped: `dfsan_flush` (dfsan.cpp 969-972,
called by `dfsan_init`) maps the shadow from `ShadowAddr()` to `UnusedAddr()`, so a null pointer makes the
function access address 0 (`ub`). -/
def setAt (page : Nat) (m : Mem) (l p n : Nat) : Res Mem :=
  if n = 0 ∨ (kShadowAddr ≤ shadowFor p ∧ shadowFor p < kUnionTableAddr) then setLabel page m l p n else .ub

/-- `if (ret == 0) dfsan_set_label(0, p, n)`: `__dfsw_stat` (82-91) and `__dfsw_fstat` (100-109) with
sizeof(struct stat) = 144, `__dfsw_clock_gettime` (727-737) with sizeof(struct timespec) = 16,
`__dfsw_getrlimit` (1065-1075) with 16, `__dfsw_getrusage` (1086-1095) with 144,
`__dfsw_sched_getaffinity` (1545-1556) with `cpusetsize`, `__dfsw_socketpair` (1988-1999) with 8. -/
def onZero (page : Nat) (m : Mem) (ret : Int) (p n : Nat) : Res Mem :=
  if ret = 0 then setAt page m 0 p n else .ok m

/-- `__dfsw_stat`, `__dfsw_fstat`, dfsan_custom.cpp 82-91, 100-109. -/
def statW (page : Nat) (m : Mem) (ret : Int) (buf : Nat) : Res Mem := onZero page m ret buf 144

/-- `__dfsw_clock_gettime`, dfsan_custom.cpp 727-737. -/
def clockGettimeW (page : Nat) (m : Mem) (ret : Int) (tp : Nat) : Res Mem := onZero page m ret tp 16

/-- `__dfsw_getrlimit`, dfsan_custom.cpp 1065-1075. -/
def getrlimitW (page : Nat) (m : Mem) (ret : Int) (rlim : Nat) : Res Mem := onZero page m ret rlim 16

/-- `__dfsw_getrusage`, dfsan_custom.cpp 1086-1095. -/
def getrusageW (page : Nat) (m : Mem) (ret : Int) (usage : Nat) : Res Mem := onZero page m ret usage 144

/-- `__dfsw_sched_getaffinity`, dfsan_custom.cpp 1545-1556. -/
def schedGetaffinityW (page : Nat) (m : Mem) (ret : Int) (cpusetsize mask : Nat) : Res Mem :=
  onZero page m ret mask cpusetsize

/-- `__dfsw_socketpair`, dfsan_custom.cpp 1988-1999. -/
def socketpairW (page : Nat) (m : Mem) (ret : Int) (sv : Nat) : Res Mem := onZero page m ret sv 8

/-- `__dfsw_time`, dfsan_custom.cpp 1346-1354. -/
def timeW (page : Nat) (m : Mem) (ret : Int) (t : Nat) : Res Mem :=
  if ret ≠ -1 ∧ t ≠ 0 then setAt page m 0 t 8 else .ok m

/-- `if (p) dfsan_set_label(0, p, n)`: dfsan_custom.cpp 1517-1525 (`__dfsw_select`), 1775-1780
(`__dfsw_gettimeofday`). -/
def clearIf (page : Nat) (m : Mem) (p n : Nat) : Res Mem :=
  if p ≠ 0 then setAt page m 0 p n else .ok m

/-- `__dfsw_gettimeofday`, dfsan_custom.cpp 1770-1783. -/
def gettimeofdayW (page : Nat) (m : Mem) (tv tz : Nat) : Res Mem := do
  let m ← clearIf page m tv 16
  clearIf page m tz 8

/-- `__dfsw_sigemptyset`, dfsan_custom.cpp 1571-1578; sizeof(sigset_t) = 128. -/
def sigemptysetW (page : Nat) (m : Mem) (set : Nat) : Res Mem := setAt page m 0 set 128

/-- `if (ret) dfsan_set_label(0, ret, strlen(ret) + 1)`: `__dfsw_getcwd` (1007-1018, label of the result:
`buf_label`) and `__dfsw_get_current_dir_name` (1031-1038, label 0). -/
def clearStr (page : Nat) (m : Mem) (p : Nat) : Res Mem := do
  let n ← strlen m p
  setAt page m 0 p (n + 1)

/-- `__dfsw_getcwd`, dfsan_custom.cpp 1007-1018: memory and the label of the result. -/
def getcwdW (page : Nat) (m : Mem) (ret bufLabel : Nat) : Res (Mem × Nat) :=
  if ret ≠ 0 then do
    let m ← clearStr page m ret
    .ok (m, bufLabel)
  else .ok (m, 0)

/-- `__dfsw_get_current_dir_name`, dfsan_custom.cpp 1031-1038. -/
def getCurrentDirNameW (page : Nat) (m : Mem) (ret : Nat) : Res Mem :=
  if ret ≠ 0 then clearStr page m ret else .ok m

/-- `__dfsw_gethostname`, dfsan_custom.cpp 1046-1055. -/
def gethostnameW (page : Nat) (m : Mem) (ret : Int) (name : Nat) : Res Mem :=
  if ret = 0 then clearStr page m name else .ok m

/-- `if (ret == 0) { … }` of `__dfsw_getpwuid_r`, dfsan_custom.cpp 1437-1440; sizeof(struct passwd) = 48. -/
def clearPasswd (page : Nat) (m : Mem) (ret : Int) (pwd buf : Nat) : Res Mem :=
  if ret = 0 then do
    let m ← setAt page m 0 pwd 48
    clearStr page m buf
  else .ok m

/-- `__dfsw_getpwuid_r`, dfsan_custom.cpp 1428-1444. -/
def getpwuidW (page : Nat) (m : Mem) (ret : Int) (pwd buf result : Nat) : Res Mem := do
  let m ← clearPasswd page m ret pwd buf
  setAt page m 0 result 8

/-- The loop of `__dfsw_poll`, dfsan_custom.cpp 1490-1492; `revents` is at offset 6 of the eight bytes of
a `struct pollfd`. -/
def pollLoop (page fds : Nat) : Nat → Mem → Res Mem
  | 0, m => .ok m
  | n + 1, m => do
    let m ← setAt page m 0 (fds + 8 * n + 6) 2
    pollLoop page fds n m

/-- `__dfsw_poll`, dfsan_custom.cpp 1484-1496. -/
def pollW (page : Nat) (m : Mem) (ret : Int) (fds nfds : Nat) : Res Mem :=
  if 0 ≤ ret then pollLoop page fds nfds m else .ok m

/-- `__dfsw_select`, dfsan_custom.cpp 1508-1529. -/
def selectW (page : Nat) (m : Mem) (readfds writefds exceptfds timeout : Nat) : Res Mem := do
  let m ← clearIf page m readfds 128
  let m ← clearIf page m writefds 128
  let m ← clearIf page m exceptfds 128
  setAt page m 0 timeout 16

/-- `__dfsw_nanosleep`, dfsan_custom.cpp 1907-1919. -/
def nanosleepW (page : Nat) (m : Mem) (ret : Int) (rem : Nat) : Res Mem :=
  if ret = -1 then setAt page m 0 rem 16 else .ok m

/-- `__dfsw_calloc`, dfsan_custom.cpp 463-471; `p` is what `calloc` returns. -/
def callocW (page : Nat) (m : Mem) (p nmemb size : Nat) : Res Mem := setAt page m 0 p (nmemb * size % 2 ^ 64)

/-- `dl_iterate_phdr_cb`, dfsan_custom.cpp 869-876: labels cleared before the callback runs;
sizeof(struct dl_phdr_info) = 64, with dlpi_name at 8, dlpi_phdr at 16 and the 16-bit dlpi_phnum at 24;
sizeof(Elf64_Phdr) = 56. -/
def dlIterateW (page : Nat) (m : Mem) (info : Nat) : Res Mem := do
  let m ← setAt page m 0 info 64
  let m ← clearStr page m (m.read64 (info + 8))
  setAt page m 0 (m.read64 (info + 16)) (56 * (m (info + 24) + 2 ^ 8 * m (info + 25)))

/-- `dfsan_set_label(dfsan_read_label(src, n), dst, len)`. -/
def spread (page : Nat) (started : Bool) (L : Labels) (m : Mem) (src n dst len : Nat) :
    Res (Labels × Mem) := do
  let (L, l) ← Dfsan.readLabel started L (labelOf m) src n
  let m ← setAt page m l dst len
  .ok (L, m)

/-- `__dfsw_ctime_r`, dfsan_custom.cpp 947-959; `ret` is null or `buf`. Labels, memory and the label of
the result. -/
def ctimeW (page : Nat) (started : Bool) (L : Labels) (m : Mem) (ret timep buf bufLabel : Nat) :
    Res (Labels × Mem × Nat) :=
  if ret ≠ 0 then do
    let n ← strlen m buf
    let (L, m) ← spread page started L m timep 8 buf (n + 1)
    .ok (L, m, bufLabel)
  else .ok (L, m, 0)

/-- `__dfsw_localtime_r`, dfsan_custom.cpp 1393-1406; sizeof(struct tm) = 56. -/
def localtimeW (page : Nat) (started : Bool) (L : Labels) (m : Mem) (ret timep result resultLabel : Nat) :
    Res (Labels × Mem × Nat) :=
  if ret ≠ 0 then do
    let (L, m) ← spread page started L m timep 8 result 56
    .ok (L, m, resultLabel)
  else .ok (L, m, 0)

/-- `__dfsw_inet_pton`, dfsan_custom.cpp 1362-1373; AF_INET = 2. -/
def inetPtonW (page : Nat) (started : Bool) (L : Labels) (m : Mem) (ret : Int) (af src dst : Nat) :
    Res (Labels × Mem × Nat) :=
  if ret = 1 then do
    let n ← strlen m src
    let (L, m) ← spread page started L m src (n + 1) dst (if af = 2 then 4 else 16)
    .ok (L, m, 0)
  else .ok (L, m, 0)

/-- The memory after the wrapper of one call; the table of `__dfsw_*` names. -/
def run (page : Nat) (m : Mem) : Spec.Call → Res Mem
  | .stat ret buf => statW page m ret buf
  | .clockGettime ret tp => clockGettimeW page m ret tp
  | .getrlimit ret rlim => getrlimitW page m ret rlim
  | .getrusage ret usage => getrusageW page m ret usage
  | .schedGetaffinity ret size mask => schedGetaffinityW page m ret size mask
  | .socketpair ret sv => socketpairW page m ret sv
  | .time ret t => timeW page m ret t
  | .gettimeofday tv tz => gettimeofdayW page m tv tz
  | .sigemptyset set => sigemptysetW page m set
  | .getcwd ret _ => do
    let (m, _) ← getcwdW page m ret 0
    .ok m
  | .getCurrentDirName ret _ => getCurrentDirNameW page m ret
  | .gethostname ret name _ => gethostnameW page m ret name
  | .getpwuid ret pwd buf _ result => getpwuidW page m ret pwd buf result
  | .poll ret fds nfds => pollW page m ret fds nfds
  | .select _ r w e t => selectW page m r w e t
  | .nanosleep ret _ rem => nanosleepW page m ret rem
  | .calloc p nmemb size => callocW page m p nmemb size
  | .dlIterate info _ _ _ _ => dlIterateW page m info

end OutParam
end Verif
