/-!
# Model of the disk lock with tracking

Models `crates/ff_egui_lib/src/tracking_lock.rs` (`TrackingLock`, its two guard types and their `Drop`
implementations) as an interleaving transition system over the standard library's `RwLock` and `Mutex`.

The std types are modelled by their documented contract:
* `RwLock::try_read` succeeds iff no writer holds the lock and it is not poisoned; `try_write` succeeds iff
  nobody holds it and it is not poisoned (a poisoned lock gives `Err`, and the code matches `Err(_)`).
* dropping a `RwLockWriteGuard` while the thread unwinds from a panic poisons the lock.
* `Mutex::lock` waits for the holder; `.lock().unwrap()` panics on a poisoned mutex; a `MutexGuard` dropped by
  an unwinding panic that started after it was taken poisons the mutex.

A *call* (one `read` or `write` and the life of the guard it returns) is a process with a program point.
Scheduling points are the acquisition of the tracking mutex, the tracking check, the `try_` call (success and
the bookkeeping under the mutex are one step: nobody else can look at the tracking data meanwhile), and, for a
guard drop, the acquisition of the mutex, the bookkeeping, and the release of the inner guard.  The last one is
a separate step because Rust drops the *fields* of a guard after its `Drop::drop` body has returned, hence after
the tracking mutex was released.
Not modelled: logging, the `Arc` reference counts, the reader-count limit of `RwLock`, weak memory effects
(std locks are sequentially consistent for their own state).
-/
namespace Fox.Lock

/-- `RwLock<T>`: the inner lock (tracking_lock.rs 44-45), as the number of readers, the writer flag and the
poison flag. -/
structure Rw where
  readers : Nat
  writer : Bool
  poisoned : Bool
deriving DecidableEq, Repr

/-- `TrackingData` (tracking_lock.rs 50-53).  The hash map is an association list. -/
structure Tracking (C : Type) where
  reads : List (C × Nat)
  write : Option C
deriving DecidableEq, Repr

/-- Everything the calls share: the inner lock, the tracking mutex (held / poisoned), the data it protects, and
whether the process was aborted (a panic while unwinding from a panic). -/
structure Shared (C : Type) where
  inner : Rw
  locked : Bool
  poisoned : Bool
  tracking : Tracking C
  aborted : Bool
deriving DecidableEq, Repr

/-- Program points of a call and of the guard it returned (tracking_lock.rs `read` 123-151, `write` 154-190,
`Drop` of the read guard 217-233 and of the write guard 256-282).  The flag of the drop points tells whether
the thread is unwinding. -/
inductive Proc (C : Type) where
  | rdEnter (c : C)            -- about to take the tracking mutex
  | rdCheck (c : C)            -- holds the mutex, about to look at `write_lock`
  | rdTry (c : C)              -- holds the mutex, about to call `try_read`
  | rdHeld (c : C)             -- `read` returned `Ok`, the caller has the guard
  | rdDrop (c : C) (p : Bool)  -- the guard is being dropped, about to take the mutex
  | rdUpd (c : C) (p : Bool)   -- holds the mutex, about to update the count
  | rdRel (p : Bool)           -- `drop` returned, inner guard not yet released
  | rdErr (c : C)              -- `read` returned `Err(c)`
  | wrEnter (c : C)
  | wrCheck (c : C)
  | wrTry (c : C)
  | wrHeld (c : C)
  | wrDrop (c : C) (p : Bool)
  | wrUpd (c : C) (p : Bool)
  | wrRel (p : Bool)
  | wrErr (cs : List C)
  | done                       -- the guard is gone
  | panicked                   -- the call (or the drop) panicked
deriving DecidableEq, Repr

/-- `TrackingLock::new` (tracking_lock.rs 97-105). -/
def Shared.new (C : Type) : Shared C :=
  { inner := ⟨0, false, false⟩, locked := false, poisoned := false, tracking := ⟨[], none⟩, aborted := false }

variable {C : Type} [DecidableEq C]

/-- `*read_locks.entry(context).or_insert(0) += 1` (tracking_lock.rs 139). -/
def bump (c : C) : List (C × Nat) → List (C × Nat)
  | [] => [(c, 1)]
  | (d, n) :: m => if d = c then (d, n + 1) :: m else (d, n) :: bump c m

/-- The read guard's bookkeeping: decrement the count of the context and remove it at zero; an unregistered
context is only logged (tracking_lock.rs 219-231). -/
def unbump (c : C) : List (C × Nat) → List (C × Nat)
  | [] => []
  | (d, n) :: m => if d = c then (if n - 1 = 0 then m else (d, n - 1) :: m) else (d, n) :: unbump c m

/-- One step of a call.  `none`: the step is not possible now (waiting for the mutex, or waiting for the client
to drop the guard, or finished).  Lines: `read` 123-151, `write` 154-190, drops 217-233 and 256-282. -/
def stepProc (sh : Shared C) : Proc C → Option (Shared C × Proc C)
  -- `self.tracking.lock().unwrap()` (124)
  | .rdEnter c =>
    if sh.locked then none
    else if sh.poisoned then some (sh, .panicked)
    else some ({ sh with locked := true }, .rdCheck c)
  -- `if tracking.write_lock.is_some() { return Err(..) }` (126-133)
  | .rdCheck c =>
    match sh.tracking.write with
    | some w => some ({ sh with locked := false }, .rdErr w)
    | none => some (sh, .rdTry c)
  -- `match self.inner.try_read()` (136-150); the panic unwinds through the mutex guard
  | .rdTry c =>
    if sh.inner.writer || sh.inner.poisoned then
      some ({ sh with locked := false, poisoned := true }, .panicked)
    else
      some ({ sh with inner := { sh.inner with readers := sh.inner.readers + 1 },
                      tracking := { sh.tracking with reads := bump c sh.tracking.reads },
                      locked := false }, .rdHeld c)
  | .rdHeld _ => none
  -- `self.tracking.lock().unwrap()` in `drop` (218); a panic here unwinds into the fields
  | .rdDrop c p =>
    if sh.locked then none
    else if sh.poisoned then
      (if p then some ({ sh with aborted := true }, .rdDrop c p) else some (sh, .rdRel true))
    else some ({ sh with locked := true }, .rdUpd c p)
  -- bookkeeping and the end of `drop` (219-232)
  | .rdUpd c p =>
    some ({ sh with tracking := { sh.tracking with reads := unbump c sh.tracking.reads }, locked := false },
      .rdRel p)
  -- the `guard` field is dropped
  | .rdRel p =>
    some ({ sh with inner := { sh.inner with readers := sh.inner.readers - 1 } },
      if p then .panicked else .done)
  | .rdErr _ => none
  -- `self.tracking.lock().unwrap()` (155)
  | .wrEnter c =>
    if sh.locked then none
    else if sh.poisoned then some (sh, .panicked)
    else some ({ sh with locked := true }, .wrCheck c)
  -- both checks and `tracking.write_lock = Some(context)` (157-176)
  | .wrCheck c =>
    if sh.tracking.reads ≠ [] then
      some ({ sh with locked := false }, .wrErr (sh.tracking.reads.map (·.1)))
    else match sh.tracking.write with
      | some w => some ({ sh with locked := false }, .wrErr [w])
      | none => some ({ sh with tracking := { sh.tracking with write := some c } }, .wrTry c)
  -- `match self.inner.try_write()` (179-189)
  | .wrTry c =>
    if sh.inner.writer || sh.inner.readers != 0 || sh.inner.poisoned then
      some ({ sh with locked := false, poisoned := true }, .panicked)
    else
      some ({ sh with inner := { sh.inner with writer := true }, locked := false }, .wrHeld c)
  | .wrHeld _ => none
  -- `self.tracking.lock().unwrap()` in `drop` (257)
  | .wrDrop c p =>
    if sh.locked then none
    else if sh.poisoned then
      (if p then some ({ sh with aborted := true }, .wrDrop c p) else some (sh, .wrRel true))
    else some ({ sh with locked := true }, .wrUpd c p)
  -- bookkeeping (258-281)
  | .wrUpd c p =>
    some ({ sh with tracking := ⟨sh.tracking.reads, if sh.tracking.write = some c then none else sh.tracking.write⟩,
                    locked := false }, .wrRel p)
  -- the `guard` field is dropped; while unwinding this poisons the inner lock
  | .wrRel p =>
    some ({ sh with inner := { sh.inner with writer := false, poisoned := sh.inner.poisoned || p } },
      if p then .panicked else .done)
  | .wrErr _ => none
  | .done => none
  | .panicked => none

/-- The whole system: the shared state and every call made so far. -/
structure Sys (C : Type) where
  sh : Shared C
  procs : List (Proc C)
deriving DecidableEq, Repr

/-- The system before the first call. -/
def Sys.new (C : Type) : Sys C := ⟨Shared.new C, []⟩

/-- What a schedule can do next: a client calls `read` or `write` (on any thread, with any context), a client
drops the guard it got from call `i` (`p`: because its thread panicked), or call `i` takes one step. -/
inductive Event (C : Type) where
  | read (c : C)
  | write (c : C)
  | drop (i : Nat) (p : Bool)
  | adv (i : Nat)
deriving DecidableEq, Repr

/-- One step of call `i`. -/
def Sys.adv (s : Sys C) (i : Nat) : Sys C :=
  match s.procs[i]? with
  | none => s
  | some q =>
    match stepProc s.sh q with
    | none => s
    | some (sh', q') => ⟨sh', s.procs.set i q'⟩

/-- The effect of an event; an impossible event changes nothing, and nothing happens after an abort. -/
def Sys.step (s : Sys C) (e : Event C) : Sys C :=
  if s.sh.aborted then s
  else match e with
  | .read c => { s with procs := s.procs ++ [.rdEnter c] }
  | .write c => { s with procs := s.procs ++ [.wrEnter c] }
  | .drop i p =>
    match s.procs[i]? with
    | some (.rdHeld c) => { s with procs := s.procs.set i (.rdDrop c p) }
    | some (.wrHeld c) => { s with procs := s.procs.set i (.wrDrop c p) }
    | _ => s
  | .adv i => s.adv i

/-- Run a schedule. -/
def Sys.run (s : Sys C) (es : List (Event C)) : Sys C := es.foldl Sys.step s

end Fox.Lock
