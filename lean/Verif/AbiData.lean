import Verif.Libs
/-
Data of the shipped ABI list and of the wrappers, as read from the files named at each definition.
-/
namespace Verif.Libs
open PassModule

/-- Categories of the list. -/
inductive Cat where
  | unins
  | custom
  | discard
  | functional
  deriving DecidableEq, Repr

/-- Characters of a name. -/
def chars (s : String) : Name := s.toList

/-- The names that are listed as custom or have a wrapper. -/
def relevant : List Name :=
  (["_IO_getc", "_IO_putc", "__assert_fail", "__getdelim", "__polytracker_log_conditional_branch",
    "__polytracker_log_taint_cmp", "__polytracker_log_taint_op", "__polytracker_log_tainted_control_flow",
    "__sanitizer_cov_trace_cmp", "__sanitizer_cov_trace_cmp1", "__sanitizer_cov_trace_cmp2",
    "__sanitizer_cov_trace_cmp4", "__sanitizer_cov_trace_cmp8", "__sanitizer_cov_trace_const_cmp1",
    "__sanitizer_cov_trace_const_cmp2", "__sanitizer_cov_trace_const_cmp4", "__sanitizer_cov_trace_const_cmp8",
    "__sanitizer_cov_trace_switch", "_dl_get_tls_static_info", "_putc", "accept", "accept4", "bcmp", "calloc",
    "clock_gettime", "close", "connect", "ctime_r", "dfsan_get_label", "dfsan_get_origin", "dfsan_set_write_callback",
    "dl_iterate_phdr", "dlopen", "epoll_wait", "exit", "fclose", "fgetc", "fgetc_unlocked", "fgets", "fopen",
    "fopen64", "fork", "fputc", "fread", "fread_unlocked", "free", "fstat", "fwrite", "get_current_dir_name", "getc",
    "getc_unlocked", "getchar", "getchar_unlocked", "getcwd", "getdelim", "gethostname", "getpeername", "getpwuid_r",
    "getrlimit", "getrusage", "gets", "getsockname", "getsockopt", "gettimeofday", "inet_pton", "localtime_r",
    "malloc", "memchr", "memcmp", "memcpy", "memmove", "memset", "mmap", "munmap", "nanosleep", "open", "open64",
    "openat", "poll", "pread", "pread64", "pthread_cond_broadcast", "pthread_create", "pthread_join", "putc", "read",
    "realloc", "recv", "recvfrom", "recvmmsg", "recvmsg", "sched_getaffinity", "select", "send", "sigaction",
    "sigaltstack", "sigemptyset", "signal", "snprintf", "socketpair", "sprintf", "stat", "strcasecmp", "strcat",
    "strchr", "strcmp", "strcpy", "strdup", "strlen", "strncasecmp", "strncmp", "strncpy", "strpbrk", "strrchr",
    "strstr", "strtod", "strtol", "strtoll", "strtoul", "strtoull", "time", "write"]).map chars

/-- Lines `fun:name=category` of /repo/polytracker/custom_abi/dfsan_abilist.txt for these names, without repetitions. The
patterns with `*` in the file (`__sanitizer_cov_trace_pc*`, `__dfsw_*`) match none of the names, and no line of the other
lists in that directory that can be given to the pass names one of them. -/
def shipped : List (Name × Cat) :=
  ([("malloc", .unins), ("malloc", .custom), ("realloc", .unins), ("realloc", .custom), ("calloc", .unins),
    ("calloc", .custom), ("free", .unins), ("free", .custom), ("mmap", .unins), ("mmap", .custom), ("munmap", .unins),
    ("munmap", .custom), ("open", .unins), ("open", .custom), ("open64", .unins), ("open64", .custom),
    ("__polytracker_log_taint_cmp", .unins), ("__polytracker_log_taint_cmp", .custom),
    ("__polytracker_log_taint_op", .unins), ("__polytracker_log_taint_op", .custom),
    ("__polytracker_log_conditional_branch", .unins), ("__polytracker_log_conditional_branch", .custom),
    ("__polytracker_log_tainted_control_flow", .unins), ("__polytracker_log_tainted_control_flow", .custom),
    ("dfsan_get_label", .unins), ("dfsan_get_label", .custom), ("dfsan_set_write_callback", .unins),
    ("dfsan_set_write_callback", .custom), ("__assert_fail", .unins), ("__assert_fail", .custom), ("close", .custom),
    ("fclose", .custom), ("clock_gettime", .custom), ("dlopen", .custom), ("fgets", .custom), ("fstat", .custom),
    ("getcwd", .custom), ("get_current_dir_name", .custom), ("gethostname", .custom), ("getrlimit", .custom),
    ("getrusage", .custom), ("nanosleep", .custom), ("pread", .custom), ("pread64", .custom), ("read", .custom),
    ("socketpair", .custom), ("stat", .custom), ("time", .custom), ("ctime_r", .custom), ("inet_pton", .custom),
    ("localtime_r", .custom), ("memcpy", .custom), ("memset", .custom), ("strcpy", .custom), ("strdup", .custom),
    ("strncpy", .custom), ("strtod", .custom), ("strtol", .custom), ("strtoll", .custom), ("strtoul", .custom),
    ("strtoull", .custom), ("memchr", .custom), ("memcmp", .custom), ("strcasecmp", .custom), ("strchr", .custom),
    ("strcmp", .custom), ("strlen", .custom), ("strncasecmp", .custom), ("strncmp", .custom), ("strrchr", .custom),
    ("strstr", .custom), ("write", .custom), ("dl_iterate_phdr", .custom), ("getpwuid_r", .custom), ("poll", .custom),
    ("sched_getaffinity", .custom), ("select", .custom), ("sigemptyset", .custom), ("sigaction", .custom),
    ("gettimeofday", .custom), ("sprintf", .custom), ("snprintf", .custom), ("pthread_create", .custom),
    ("__sanitizer_cov_trace_cmp1", .custom), ("__sanitizer_cov_trace_cmp1", .unins),
    ("__sanitizer_cov_trace_cmp2", .custom), ("__sanitizer_cov_trace_cmp2", .unins),
    ("__sanitizer_cov_trace_cmp4", .custom), ("__sanitizer_cov_trace_cmp4", .unins),
    ("__sanitizer_cov_trace_cmp8", .custom), ("__sanitizer_cov_trace_cmp8", .unins),
    ("__sanitizer_cov_trace_const_cmp1", .custom), ("__sanitizer_cov_trace_const_cmp1", .unins),
    ("__sanitizer_cov_trace_const_cmp2", .custom), ("__sanitizer_cov_trace_const_cmp2", .unins),
    ("__sanitizer_cov_trace_const_cmp4", .custom), ("__sanitizer_cov_trace_const_cmp4", .unins),
    ("__sanitizer_cov_trace_const_cmp8", .custom), ("__sanitizer_cov_trace_const_cmp8", .unins),
    ("__sanitizer_cov_trace_switch", .custom), ("__sanitizer_cov_trace_switch", .unins), ("_IO_getc", .unins),
    ("_IO_putc", .unins), ("_IO_putc", .custom), ("__getdelim", .unins), ("_dl_get_tls_static_info", .unins),
    ("accept", .unins), ("accept", .custom), ("accept4", .unins), ("accept4", .custom), ("bcmp", .unins),
    ("bcmp", .custom), ("clock_gettime", .unins), ("close", .unins), ("connect", .unins), ("connect", .custom),
    ("ctime_r", .unins), ("dl_iterate_phdr", .unins), ("dlopen", .unins), ("epoll_wait", .unins), ("exit", .unins),
    ("exit", .custom), ("fclose", .unins), ("fgetc", .unins), ("fgetc", .custom), ("fgetc_unlocked", .unins),
    ("fgets", .unins), ("fopen", .unins), ("fopen", .custom), ("fopen64", .unins), ("fopen64", .custom),
    ("fork", .unins), ("fputc", .unins), ("fputc", .custom), ("fread", .unins), ("fread", .custom),
    ("fread_unlocked", .unins), ("fread_unlocked", .custom), ("fstat", .unins), ("fwrite", .unins),
    ("fwrite", .custom), ("get_current_dir_name", .unins), ("getc", .unins), ("getc", .custom),
    ("getc_unlocked", .unins), ("getc_unlocked", .custom), ("getchar", .unins), ("getchar", .custom),
    ("getchar_unlocked", .unins), ("getchar_unlocked", .custom), ("getcwd", .unins), ("getdelim", .unins),
    ("gethostname", .unins), ("getpeername", .unins), ("getpwuid_r", .unins), ("getrlimit", .unins),
    ("getrusage", .unins), ("gets", .unins), ("getsockname", .unins), ("getsockopt", .unins),
    ("gettimeofday", .unins), ("inet_pton", .unins), ("localtime_r", .unins), ("memchr", .unins), ("memcmp", .unins),
    ("memcpy", .unins), ("memmove", .unins), ("memset", .unins), ("nanosleep", .unins), ("openat", .unins),
    ("poll", .unins), ("pread", .unins), ("pread64", .unins), ("pthread_cond_broadcast", .unins),
    ("pthread_cond_broadcast", .custom), ("pthread_create", .unins), ("pthread_join", .unins), ("putc", .unins),
    ("putc", .custom), ("read", .unins), ("recv", .unins), ("recv", .custom), ("recvfrom", .unins),
    ("recvfrom", .custom), ("recvmmsg", .unins), ("recvmsg", .unins), ("sched_getaffinity", .unins),
    ("select", .unins), ("send", .unins), ("send", .custom), ("sigaction", .unins), ("sigaltstack", .unins),
    ("sigemptyset", .unins), ("signal", .unins), ("snprintf", .unins), ("socketpair", .unins), ("sprintf", .unins),
    ("stat", .unins), ("strcasecmp", .unins), ("strcat", .unins), ("strcat", .custom), ("strchr", .unins),
    ("strcmp", .unins), ("strcpy", .unins), ("strdup", .unins), ("strlen", .unins), ("strncasecmp", .unins),
    ("strncmp", .unins), ("strncpy", .unins), ("strpbrk", .unins), ("strpbrk", .functional), ("strrchr", .unins),
    ("strstr", .unins), ("strtod", .unins), ("strtol", .unins), ("strtoll", .unins), ("strtoul", .unins),
    ("strtoull", .unins), ("time", .unins), ("write", .unins)]).map fun x => (chars x.1, x.2)

/-- Wrappers defined in /repo/polytracker/src/taint_sources/*.cpp and src/polytracker/polytracker.cpp, with the file. -/
def polyWrappers : List (Name × String) :=
  ([("_IO_getc", "taint_sources.cpp"), ("__assert_fail", "taint_sources.cpp"), ("__getdelim", "taint_sources.cpp"),
    ("__polytracker_log_conditional_branch", "polytracker.cpp"),
    ("__polytracker_log_tainted_control_flow", "polytracker.cpp"), ("_putc", "taint_sources.cpp"),
    ("accept", "taint_sources.cpp"), ("accept4", "taint_sources.cpp"), ("close", "taint_sources.cpp"),
    ("connect", "taint_sources.cpp"), ("exit", "taint_sources.cpp"), ("fclose", "taint_sources.cpp"),
    ("fgetc", "taint_sources.cpp"), ("fgetc_unlocked", "taint_sources.cpp"), ("fgets", "taint_sources.cpp"),
    ("fopen", "taint_sources.cpp"), ("fopen64", "taint_sources.cpp"), ("fputc", "write_taints.cpp"),
    ("fread", "taint_sources.cpp"), ("fread_unlocked", "taint_sources.cpp"), ("free", "memory_taints.cpp"),
    ("fwrite", "write_taints.cpp"), ("getc", "taint_sources.cpp"), ("getc_unlocked", "taint_sources.cpp"),
    ("getchar", "taint_sources.cpp"), ("getchar_unlocked", "taint_sources.cpp"), ("getdelim", "taint_sources.cpp"),
    ("gets", "taint_sources.cpp"), ("malloc", "memory_taints.cpp"), ("mmap", "taint_sources.cpp"),
    ("munmap", "taint_sources.cpp"), ("open", "taint_sources.cpp"), ("open64", "taint_sources.cpp"),
    ("openat", "taint_sources.cpp"), ("pread", "taint_sources.cpp"), ("pread64", "taint_sources.cpp"),
    ("pthread_cond_broadcast", "taint_sources.cpp"), ("putc", "write_taints.cpp"), ("read", "taint_sources.cpp"),
    ("realloc", "memory_taints.cpp"), ("recv", "taint_sources.cpp"), ("recvfrom", "taint_sources.cpp"),
    ("send", "write_taints.cpp"), ("strcat", "string_taints.cpp"), ("write", "write_taints.cpp")]).map fun x => (chars x.1, x.2)

/-- Wrappers defined in /repo/polytracker/src/compiler-rt/lib/dfsan/dfsan_custom.cpp and dfsan.cpp. -/
def rtWrappers : List Name :=
  (["__sanitizer_cov_trace_cmp", "__sanitizer_cov_trace_cmp1", "__sanitizer_cov_trace_cmp2",
    "__sanitizer_cov_trace_cmp4", "__sanitizer_cov_trace_cmp8", "__sanitizer_cov_trace_const_cmp1",
    "__sanitizer_cov_trace_const_cmp2", "__sanitizer_cov_trace_const_cmp4", "__sanitizer_cov_trace_const_cmp8",
    "__sanitizer_cov_trace_switch", "_dl_get_tls_static_info", "bcmp", "calloc", "clock_gettime", "ctime_r",
    "dfsan_get_label", "dfsan_get_origin", "dfsan_set_write_callback", "dl_iterate_phdr", "dlopen", "epoll_wait",
    "fgets", "fork", "fstat", "get_current_dir_name", "getcwd", "gethostname", "getpeername", "getpwuid_r",
    "getrlimit", "getrusage", "getsockname", "getsockopt", "gettimeofday", "inet_pton", "localtime_r", "memchr",
    "memcmp", "memcpy", "memmove", "memset", "nanosleep", "poll", "pread", "pthread_create", "pthread_join", "read",
    "recvmmsg", "recvmsg", "sched_getaffinity", "select", "sigaction", "sigaltstack", "sigemptyset", "signal",
    "snprintf", "socketpair", "sprintf", "stat", "strcasecmp", "strcat", "strchr", "strcmp", "strcpy", "strdup",
    "strlen", "strncasecmp", "strncmp", "strncpy", "strpbrk", "strrchr", "strstr", "strtod", "strtol", "strtoll",
    "strtoul", "strtoull", "time", "write"]).map chars

end Verif.Libs
