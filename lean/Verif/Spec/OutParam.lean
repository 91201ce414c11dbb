import Verif.Spec.Labels
/-
Reference for C58: which bytes of the caller a library or system call writes, after the manual pages
(Linux, x86-64, GNU C library), independent of the wrappers.
-/
namespace Verif
namespace Spec

/-- A call that has returned: its result, its pointer arguments (0 = null) and the extent of what it
stored. -/
inductive Call where
  /-- stat, fstat: `struct stat` -/
  | stat (ret : Int) (buf : Nat)
  | clockGettime (ret : Int) (tp : Nat)
  | getrlimit (ret : Int) (rlim : Nat)
  | getrusage (ret : Int) (usage : Nat)
  | schedGetaffinity (ret : Int) (cpusetsize mask : Nat)
  | socketpair (ret : Int) (sv : Nat)
  | time (ret : Int) (t : Nat)
  | gettimeofday (tv tz : Nat)
  | sigemptyset (set : Nat)
  /-- a path of `len` characters at `ret`, or failure (`ret` = 0) -/
  | getcwd (ret len : Nat)
  | getCurrentDirName (ret len : Nat)
  | gethostname (ret : Int) (name len : Nat)
  /-- `used`: lengths of the strings that were stored one after the other in `buf` -/
  | getpwuid (ret : Int) (pwd buf : Nat) (used : List Nat) (result : Nat)
  | poll (ret : Int) (fds nfds : Nat)
  | select (ret : Int) (readfds writefds exceptfds timeout : Nat)
  /-- `intr`: interrupted by a signal -/
  | nanosleep (ret : Int) (intr : Bool) (rem : Nat)
  | calloc (p nmemb size : Nat)
  /-- what the callback of dl_iterate_phdr is given: `info`, with a name of `len` characters and
  `phnum` program headers -/
  | dlIterate (info name len phdr phnum : Nat)

/-- A region if the pointer is not null. -/
def nonNull (p n : Nat) : List (Nat × Nat) := if p ≠ 0 then [(p, n)] else []

/-- The regions (address, length) of the caller that a call has written. -/
def Call.written : Call → List (Nat × Nat)
  | stat ret buf => if ret = 0 then [(buf, 144)] else []
  | clockGettime ret tp => if ret = 0 then [(tp, 16)] else []
  | getrlimit ret rlim => if ret = 0 then [(rlim, 16)] else []
  | getrusage ret usage => if ret = 0 then [(usage, 144)] else []
  | schedGetaffinity ret n mask => if ret = 0 then [(mask, n)] else []
  | socketpair ret sv => if ret = 0 then [(sv, 8)] else []
  | time ret t => if ret = -1 then [] else nonNull t 8
  | gettimeofday tv tz => nonNull tv 16 ++ nonNull tz 8
  | sigemptyset set => [(set, 128)]
  | getcwd ret len => nonNull ret (len + 1)
  | getCurrentDirName ret len => nonNull ret (len + 1)
  | gethostname ret name len => if ret = 0 then [(name, len + 1)] else []
  | getpwuid ret pwd buf used result =>
    (if ret = 0 then [(pwd, 48), (buf, (used.map (· + 1)).sum)] else []) ++ [(result, 8)]
  | poll ret fds nfds => if 0 ≤ ret then (List.range nfds).map (fun i => (fds + 8 * i + 6, 2)) else []
  | select ret r w e t =>
    if 0 ≤ ret then nonNull r 128 ++ nonNull w 128 ++ nonNull e 128 ++ nonNull t 16 else []
  | nanosleep ret intr rem => if ret = -1 ∧ intr = true then nonNull rem 16 else []
  | calloc p nmemb size => nonNull p (nmemb * size)
  | dlIterate info name len phdr phnum => [(info, 64), (name, len + 1), (phdr, 56 * phnum)]

/-- The strings (address, length) among the results, terminated by a zero byte. -/
def Call.strings : Call → List (Nat × Nat)
  | getcwd ret len => nonNull ret len
  | getCurrentDirName ret len => nonNull ret len
  | gethostname ret name len => if ret = 0 then [(name, len)] else []
  | getpwuid ret _ buf used _ => if ret = 0 then [(buf, used.headD 0)] else []
  | dlIterate _ name len _ _ => [(name, len)]
  | _ => []

/-- Little-endian number of `n` bytes. -/
def leBytes (bytes : Nat → Nat) (a : Nat) : Nat → Nat
  | 0 => 0
  | n + 1 => bytes a + 256 * leBytes bytes (a + 1) n

/-- The call really has stored its results in `bytes`: the regions lie in application memory, the strings
are there, and so are the fields of a `struct dl_phdr_info`. -/
structure Call.Stored (bytes : Nat → Nat) (c : Call) : Prop where
  app : ∀ r ∈ c.written, 0x700000008000 ≤ r.1 ∧ r.1 + r.2 < 0x800000000000
  str : ∀ s ∈ c.strings, IsStr bytes s.1 s.2
  fields : ∀ info name len phdr phnum, c = .dlIterate info name len phdr phnum →
    leBytes bytes (info + 8) 8 = name ∧ leBytes bytes (info + 16) 8 = phdr ∧
      leBytes bytes (info + 24) 2 = phnum

/-- The byte at `b` belongs to one of the regions. -/
def Within (rs : List (Nat × Nat)) (b : Nat) : Prop := ∃ r ∈ rs, r.1 ≤ b ∧ b < r.1 + r.2

/-- New labels: 0 within the regions, the old ones elsewhere in application memory. -/
def Cleared (rs : List (Nat × Nat)) (old new : Nat → Nat) : Prop :=
  ∀ b, IsApp b → (Within rs b → new b = 0) ∧ (¬ Within rs b → new b = old b)

/-- The calls for which the wrappers are right. -/
def Call.Regular : Call → Prop
  | getpwuid ret _ _ used _ => ret = 0 → used.length = 1
  | select ret _ _ _ t => 0 ≤ ret ∧ t ≠ 0
  | nanosleep ret intr rem => ret = -1 → intr = true ∧ rem ≠ 0
  | calloc p nmemb size => p ≠ 0 ∨ nmemb * size = 0
  | _ => True

end Spec
end Verif
