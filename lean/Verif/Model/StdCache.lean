/-!
# The shared cache of the compiled standard library (`src/compiler/snapshot/cache.rs`)

Any number of compiler processes run on one file system. A step of a process is one file operation;
what the system decides (errors, the clock, how much of a failed write reached the disk) is a `Choice`.
`fs::read` is one step: a file at the path of the cache is never written in place, only renamed to.
-/

namespace Ferlium.StdCache

/-- Contents of files. -/
abbrev Bytes := List Nat

/-- `CACHE_MAGIC`, cache.rs:19. -/
def magic : Bytes := [70, 69, 82, 83, 84, 68, 0, 1]

/-- The digest (SHA-256 there), decoding with restoring of snapshots, the result of compiling the
library, the module that a failed capture hands out (75-78), the number that names the temporary file of a process (200-202), and an upper bound of how
often a process can wait for 20 ms until 120 s are over (16-17). -/
structure Env (R : Type) where
  digest : Bytes → Bytes
  load : Bytes → Option R
  compiled : R
  leftover : R
  name : Nat → Nat
  polls : Nat

/-- `cache_file_bytes`, cache.rs:155-162. -/
def fileBytes {R : Type} (E : Env R) (payload : Bytes) : Bytes := magic ++ E.digest payload ++ payload

/-- `checked_payload`, cache.rs:164-180; 32 is `CHECKSUM_LEN` (20). -/
def checked {R : Type} (E : Env R) (bytes : Bytes) : Option Bytes :=
  if bytes.length < magic.length + 32 ∨ bytes.take magic.length ≠ magic then none
  else
    let expected := (bytes.drop magic.length).take 32
    let payload := bytes.drop (magic.length + 32)
    if E.digest payload = expected then some payload else none

/-- What `try_load` may find. -/
inductive Found (R : Type)
  | hit (r : R)
  | miss
  | error

/-- `try_load`, cache.rs:123-136. -/
def tryLoad {R : Type} (E : Env R) (fails : Bool) (cache : Option Bytes) : Found R :=
  match cache with
  | none => if fails then .error else .miss
  | some bytes =>
    if fails then .error
    else match checked E bytes with
      | none => .error
      | some payload => match E.load payload with
        | none => .error
        | some r => .hit r

/-- Outcomes of `capture` and `encode`, cache.rs:71-86. -/
inductive Capture
  | failed
  | unencodable
  | payload (p : Bytes)

/-- What the system decides for a step: there is no path for a cache (182-191), the operation fails,
the clock is past the limit, the snapshot, and what a failed write left in the file. -/
structure Choice where
  noPath : Bool
  fails : Bool
  late : Bool
  capture : Capture
  written : Bytes

/-- Where a process is in `load_or_build_std` (24-115) and `publish_atomically` (200-225). `poll`,
`peek` and `lock` carry how often the process can still wait. -/
inductive Pc (R : Type)
  | start
  | look
  | dirs
  | openLock
  | poll (n : Nat)
  | peek (n : Nat)
  | lock (n : Nat)
  | locked
  | discard
  | build
  | create (p : Bytes) (r : R)
  | write (p : Bytes) (r : R)
  | rename (p : Bytes) (r : R)
  | replace (p : Bytes) (r : R)
  | again (p : Bytes) (r : R)
  | cleanup (r : R)
  | done (r : R)
  | dead

/-- The files, the lock and the processes. -/
structure State (R : Type) where
  cache : Option Bytes
  invalid : Bool
  holder : Option Nat
  temp : Nat → Option Bytes
  pc : Nat → Pc R

variable {R : Type}

/-- The process goes on. -/
def State.goto (s : State R) (i : Nat) (pc : Pc R) : State R :=
  { s with pc := fun j => if j = i then pc else s.pc j }

/-- The temporary file of the process. -/
def State.setTemp (s : State R) (n : Nat) (b : Option Bytes) : State R :=
  { s with temp := fun m => if m = n then b else s.temp m }

/-- The process leaves; the system closes its lock file. -/
def State.leave (s : State R) (i : Nat) (pc : Pc R) : State R :=
  { s.goto i pc with holder := if s.holder = some i then none else s.holder }

/-- `mark_cache_unusable`, cache.rs:146-153. -/
def State.mark (s : State R) (fails : Bool) : State R := { s with invalid := s.invalid || !fails }

/-- One step of process `i` in `load_or_build_std`, cache.rs:24-115, and `publish_atomically`,
200-225. -/
def act (E : Env R) (i : Nat) (c : Choice) (s : State R) : State R :=
  match s.pc i with
  | .start =>
    if c.noPath then s.leave i (.done E.compiled)
    else match tryLoad E c.fails s.cache with
      | .hit r => s.leave i (.done r)
      | _ => s.goto i .look
  | .look => if s.invalid then s.leave i (.done E.compiled) else s.goto i .dirs
  | .dirs => if c.fails then s.leave i (.done E.compiled) else s.goto i .openLock
  | .openLock => if c.fails then s.leave i (.done E.compiled) else s.goto i (.poll E.polls)
  | .poll n => if s.invalid then s.leave i (.done E.compiled) else s.goto i (.peek n)
  | .peek n => match tryLoad E c.fails s.cache with
    | .hit r => s.leave i (.done r)
    | _ => s.goto i (.lock n)
  | .lock n =>
    if c.fails then s.leave i (.done E.compiled)
    else match s.holder with
      | none => { s.goto i .locked with holder := some i }
      | some _ => match n with
        | 0 => s.leave i (.done E.compiled)
        | n + 1 => if c.late then s.leave i (.done E.compiled) else s.goto i (.poll n)
  | .locked => match tryLoad E c.fails s.cache with
    | .hit r => s.leave i (.done r)
    | .miss => s.goto i .build
    | .error => s.goto i .discard
  | .discard => { s.goto i .build with cache := if c.fails then s.cache else none }
  | .build => match c.capture with
    | .failed => (s.mark c.fails).leave i (.done E.leftover)
    | .unencodable => s.leave i (.done E.compiled)
    | .payload p => match E.load p with
      | none => (s.mark c.fails).leave i (.done E.compiled)
      | some r => s.goto i (.create p r)
  | .create p r =>
    if c.fails ∨ s.temp (E.name i) ≠ none then s.goto i (.cleanup r)
    else (s.setTemp (E.name i) (some [])).goto i (.write p r)
  | .write p r =>
    if c.fails then (s.setTemp (E.name i) (some c.written)).goto i (.cleanup r)
    else (s.setTemp (E.name i) (some (fileBytes E p))).goto i (.rename p r)
  | .rename p r =>
    if c.fails then if s.cache.isSome then s.goto i (.replace p r) else s.goto i (.cleanup r)
    else { (s.setTemp (E.name i) none).leave i (.done r) with cache := s.temp (E.name i) }
  | .replace p r =>
    if c.fails then s.goto i (.cleanup r) else { s.goto i (.again p r) with cache := none }
  | .again _ r =>
    if c.fails then s.goto i (.cleanup r)
    else { (s.setTemp (E.name i) none).leave i (.done r) with cache := s.temp (E.name i) }
  | .cleanup r =>
    (if c.fails then s else s.setTemp (E.name i) none).leave i (.done r)
  | .done _ => s
  | .dead => s

/-- The process dies; the system closes its lock file, and its temporary file stays. -/
def die (i : Nat) (s : State R) : State R := s.leave i .dead

/-- Someone else deletes or damages the cache, or deletes the marker or makes it. -/
def disturb (cache : Option Bytes) (invalid : Bool) (s : State R) : State R :=
  { s with cache := cache, invalid := invalid }

end Ferlium.StdCache
